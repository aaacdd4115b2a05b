import Verif.Model.Ticker
import Mathlib.Tactic.ByContra

/-!
# C80: the update timer
-/
namespace Fpki.Ticker

theorem nextTick_gt (t0 r t : Nat) (hr : 0 < r) (ht : t0 ≤ t) : t < nextTick t0 r t ∧ nextTick t0 r t ≤ t + r := by
  unfold nextTick
  have h1 := Nat.div_add_mod (t - t0) r
  have h2 := Nat.mod_lt (t - t0) hr
  have h3 : ((t - t0) / r + 1) * r = r * ((t - t0) / r) + r := by rw [Nat.add_mul, Nat.one_mul, Nat.mul_comm]
  omega

theorem nextTick_aligned (t0 r i : Nat) (hr : 0 < r) : nextTick t0 r (t0 + i * r) = t0 + (i + 1) * r := by
  unfold nextTick
  rw [Nat.add_sub_cancel_left, Nat.mul_div_cancel _ hr]

/-- No tick lies strictly between a time and its next tick. -/
theorem nextTick_least (t0 r t k : Nat) (hr : 0 < r) (ht : t0 ≤ t) (hk : t < t0 + k * r) : nextTick t0 r t ≤ t0 + k * r := by
  unfold nextTick
  have : (t - t0) / r < k := by
    rw [Nat.div_lt_iff_lt_mul hr]
    omega
  have := Nat.mul_le_mul_right r (Nat.succ_le_of_lt this)
  rw [Nat.succ_eq_add_one] at this
  omega

theorem select_ge {c : Cfg} {p : Bool} {s e t : Nat} (h : select c p s e = some t) : t = max (nextTick c.first c.repeat_ s) e := by
  unfold select at h
  dsimp only at h
  split at h
  · injection h with h; exact h.symm
  · split at h
    · injection h with h; exact h.symm
    · split at h
      · cases h
      · split at h
        · injection h with h; exact h.symm
        · cases h

theorem start_succ {c : Cfg} {w : World} {i s' : Nat} (h : startAt c w (i + 1) = some s') : ∃ s, startAt c w i = some s ∧
    select c (w.pick i) s (s + w.dur i) = some s' ∧ s' = max (nextTick c.first c.repeat_ s) (s + w.dur i) := by
  rw [startAt, Option.bind_eq_some_iff] at h
  obtain ⟨s, h1, h2⟩ := h
  exact ⟨s, h1, h2, select_ge h2⟩

theorem start_ge_first {c : Cfg} {w : World} : ∀ {i s : Nat}, startAt c w i = some s → c.first ≤ s
  | 0, s, h => by cases h; exact Nat.le_refl _
  | i + 1, s, h => by
    obtain ⟨s0, h1, _, h3⟩ := start_succ h
    have := start_ge_first h1
    unfold nextTick at h3
    omega

/-- The function first runs at the given time, or at once if it is in the past. -/
theorem C80_first_run (c : Cfg) (w : World) (hr : 0 < c.repeat_) : ∃ f, runWhen c w = some f ∧ f 0 = some (max c.now c.«when») := by
  refine ⟨startAt c w, ?_, rfl⟩
  unfold runWhen
  rw [if_neg (by omega)]

/-- If every run takes less than the interval and the context is not cancelled, run `i` starts exactly `i` intervals after the first one, whatever the runs take. -/
theorem C80_on_time_partial (c : Cfg) (w : World) (hc : c.cancel = none) (hd : ∀ i, w.dur i < c.repeat_) (i : Nat) :
    startAt c w i = some (max c.now c.«when» + i * c.repeat_) := by
  have hr : 0 < c.repeat_ := Nat.lt_of_le_of_lt (Nat.zero_le _) (hd 0)
  induction i with
  | zero => simp [startAt, Cfg.first]
  | succ i ih =>
    rw [startAt, ih]
    show select c (w.pick i) (c.first + i * c.repeat_) (c.first + i * c.repeat_ + w.dur i) = _
    have h1 : (i + 1) * c.repeat_ = i * c.repeat_ + c.repeat_ := by rw [Nat.add_mul, Nat.one_mul]
    unfold select
    dsimp only
    rw [hc, nextTick_aligned _ _ _ hr]
    have := hd i
    show some _ = some (c.first + (i + 1) * c.repeat_)
    congr 1
    omega

/-- The function never runs more often than the interval says: run `i` starts no earlier than `i` intervals after the first one, whatever happens. -/
theorem C80_never_too_often (c : Cfg) (w : World) (hr : 0 < c.repeat_) : ∀ i s, startAt c w i = some s → max c.now c.«when» + i * c.repeat_ ≤ s := by
  intro i
  induction i with
  | zero => intro s h; cases h; simp [Cfg.first]
  | succ i ih =>
    intro s h
    obtain ⟨s0, h1, _, h3⟩ := start_succ h
    have h0 := ih s0 h1
    have hdiv : i ≤ (s0 - c.first) / c.repeat_ := by
      rw [Nat.le_div_iff_mul_le hr]
      have : max c.now c.«when» = c.first := rfl
      omega
    have := Nat.mul_le_mul_right c.repeat_ (Nat.add_le_add_right hdiv 1)
    have hx : nextTick c.first c.repeat_ s0 = c.first + ((s0 - c.first) / c.repeat_ + 1) * c.repeat_ := rfl
    have : max c.now c.«when» = c.first := rfl
    omega

/-- Runs do not overlap, and without a cancellation the next one starts at most one interval after the end of the last one: the function never stops being run. -/
theorem C80_next_run (c : Cfg) (w : World) (hr : 0 < c.repeat_) (hc : c.cancel = none) (i s : Nat) (h : startAt c w i = some s) :
    ∃ s', startAt c w (i + 1) = some s' ∧ s + w.dur i ≤ s' ∧ s < s' ∧ s' ≤ s + w.dur i + c.repeat_ := by
  refine ⟨max (nextTick c.first c.repeat_ s) (s + w.dur i), ?_, ?_⟩
  · rw [startAt, h]
    show select c _ _ _ = _
    unfold select
    dsimp only
    rw [hc]
  · have := nextTick_gt c.first c.repeat_ s hr (start_ge_first h)
    omega

/-- Every run starts at a tick, or directly at the end of a run that a tick came in. -/
theorem C80_tick_or_late (c : Cfg) (w : World) (hr : 0 < c.repeat_) (i s s' : Nat) (h : startAt c w i = some s) (h' : startAt c w (i + 1) = some s') :
    (∃ k, s' = c.first + k * c.repeat_) ∨ (s' = s + w.dur i ∧ ∃ k, s < c.first + k * c.repeat_ ∧ c.first + k * c.repeat_ ≤ s') := by
  obtain ⟨s0, h1, _, h3⟩ := start_succ h'
  rw [h] at h1
  cases h1
  by_cases hlt : nextTick c.first c.repeat_ s ≤ s + w.dur i
  · right
    refine ⟨by omega, (s - c.first) / c.repeat_ + 1, ?_⟩
    have := nextTick_gt c.first c.repeat_ s hr (start_ge_first h)
    have hx : nextTick c.first c.repeat_ s = c.first + ((s - c.first) / c.repeat_ + 1) * c.repeat_ := rfl
    omega
  · left
    exact ⟨(s - c.first) / c.repeat_ + 1, by
      have hx : nextTick c.first c.repeat_ s = c.first + ((s - c.first) / c.repeat_ + 1) * c.repeat_ := rfl
      omega⟩

/-- The start of a run does depend on how long the runs take: with an interval of 10, after a first run of 15, the second one starts at 15 and not at a multiple of 10. -/
theorem C80_duration_matters_violated : startAt ⟨0, 0, 10, none⟩ ⟨fun i => if i = 0 then 15 else 1, fun _ => true⟩ 1 = some 15 ∧
    startAt ⟨0, 0, 10, none⟩ ⟨fun _ => 1, fun _ => true⟩ 1 = some 10 := by decide

/-! ## Cancellation -/

/-- After the cancellation, if no run is longer than the interval says, no further run starts. Partial: it is cancelled after the first run has started. -/
theorem C80_cancel_partial (c : Cfg) (w : World) (d : Nat) (hc : c.cancel = some d) (hd : ∀ i, w.dur i < c.repeat_) (h0 : c.first ≤ d) (i s : Nat)
    (h : startAt c w i = some s) : s ≤ d ∧ s = c.first + i * c.repeat_ := by
  have hr : 0 < c.repeat_ := Nat.lt_of_le_of_lt (Nat.zero_le _) (hd 0)
  induction i generalizing s with
  | zero => cases h; exact ⟨h0, by simp⟩
  | succ i ih =>
    obtain ⟨s0, h1, h2, h3⟩ := start_succ h
    obtain ⟨h4, h5⟩ := ih s0 h1
    have h6 := hd i
    have h7 : (i + 1) * c.repeat_ = i * c.repeat_ + c.repeat_ := by rw [Nat.add_mul, Nat.one_mul]
    have h8 : nextTick c.first c.repeat_ s0 = c.first + (i + 1) * c.repeat_ := by rw [h5]; exact nextTick_aligned _ _ _ hr
    have h9 : s = c.first + (i + 1) * c.repeat_ := by omega
    refine ⟨?_, h9⟩
    by_contra hlt
    unfold select at h2
    dsimp only at h2
    rw [hc] at h2
    simp only at h2
    rw [if_neg (by omega), if_pos (by omega)] at h2
    cases h2

/-- Once the goroutine has ended, it has ended. -/
theorem C80_ended_forever (c : Cfg) (w : World) (i j : Nat) (hij : i ≤ j) (h : startAt c w i = none) : startAt c w j = none := by
  induction j with
  | zero => rw [show i = 0 by omega] at h; cases h
  | succ j ih =>
    by_cases he : i = j + 1
    · rw [← he]; exact h
    · rw [startAt, ih (by omega)]; rfl

/-- If the context is cancelled before the given time, the function still runs: the timer does not look at the context. -/
theorem C80_cancelled_early_violated (c : Cfg) (w : World) (d : Nat) (_ : c.cancel = some d) (hd : d < c.«when») : ∃ s, startAt c w 0 = some s ∧ d < s :=
  ⟨c.first, rfl, by unfold Cfg.first; omega⟩

/-- If the runs take longer than the interval, the function can be run any number of times after the cancellation. -/
theorem C80_cancelled_late_violated (n : Nat) : startAt ⟨0, 0, 10, some 5⟩ ⟨fun _ => 10, fun _ => true⟩ n = some (10 * n) ∧
    ∀ s, startAt ⟨0, 0, 10, some 5⟩ ⟨fun _ => 10, fun _ => true⟩ (n + 1) = some s → 5 < s := by
  have key : ∀ n, startAt ⟨0, 0, 10, some 5⟩ ⟨fun _ => 10, fun _ => true⟩ n = some (10 * n) := by
    intro n
    induction n with
    | zero => rfl
    | succ n ih =>
      rw [startAt, ih]
      simp only [Option.bind_some]
      unfold select nextTick Cfg.first
      dsimp only
      rw [if_neg (by omega), if_neg (by omega), if_pos rfl]
      congr 1
      omega
  refine ⟨key n, ?_⟩
  intro s h
  rw [key] at h
  cases h
  omega

/-- A configuration without an interval makes the process panic at the given time. -/
theorem C80_zero_interval_violated (now w : Nat) (c : Option Nat) (x : World) : runWhen ⟨now, w, 0, c⟩ x = none := rfl

example : (⟨0, 7, 10, some 30⟩ : Cfg).first ≤ 30 ∧ (List.range 5).map (startAt ⟨0, 7, 10, some 30⟩ ⟨fun i => i, fun _ => true⟩) = [some 7, some 17, some 27, none, none] ∧
    ∀ i : Nat, (fun i => i % 10 : Nat → Nat) i < 10 := by
  refine ⟨by decide, by decide, fun i => Nat.mod_lt _ (by decide)⟩

end Fpki.Ticker
