import Verif.Model.AutoResume
import Verif.Props.Util

/-!
# C195, C196, C197: a stage that is resumed automatically
-/
namespace Fpki.AutoResume

variable {target : Nat} {affected : List Nat}

theorem upd_same {α : Type} (f : Nat → α) (g : Nat) (x : α) : upd f g x g = x := if_pos rfl

theorem upd_other {α : Type} (f : Nat → α) {g g' : Nat} (x : α) (h : g' ≠ g) : upd f g x g' = f g' := if_neg h

/-- The error in the hands of the sniffer. -/
def held : Sniffer → List Nat
  | .hold e => [e]
  | _ => []

/-- The newest goroutine of the target has reported. -/
def reported : Pc → Nat
  | .closeErr => 1
  | .closeStop => 1
  | .gone => 1
  | _ => 0

structure Inv (target : Nat) (affected : List Nat) (s : St) : Prop where
  fut : ∀ k, s.cur < k → s.pc k = .idle ∧ s.errCl k = false ∧ s.stopCl k = false
  past : ∀ k, k < s.cur → s.pc k = .closeStop ∨ s.pc k = .gone
  live : s.pc s.cur ≠ .idle
  err : s.errCl s.cur = true ↔ s.pc s.cur = .closeStop ∨ s.pc s.cur = .gone
  ask : s.sniffer = .ask ∨ s.sniffer = .done → s.errCl s.cur = true
  ans : (s.sniffer = .done ∧ s.closes = 1 ∧ s.answers = List.replicate s.cur true ++ [false]) ∨
    (s.sniffer ≠ .done ∧ s.closes = 0 ∧ s.answers = List.replicate s.cur true)
  pend : s.sent = s.got ++ held s.sniffer
  len : s.sent.length ≤ s.cur + reported (s.pc s.cur)
  told : s.told = true → s.closes = 1
  events : s.events = (List.replicate s.cur (block target affected)).flatten
  reader : s.reader = .orig

theorem inv_start : Inv target affected (start .orig) where
  fut k hk := ⟨if_neg (by have : 0 < k := hk; omega), rfl, rfl⟩
  past k hk := absurd hk (Nat.not_lt_zero k)
  live := by intro h; cases h
  err := by constructor <;> intro h <;> simp [start] at h
  ask h := by rcases h with h | h <;> cases h
  ans := Or.inr ⟨(by intro h; cases h), rfl, rfl⟩
  pend := rfl
  len := Nat.zero_le _
  told h := by cases h
  events := rfl
  reader := rfl

theorem inv_step {s u : St} (h : Inv target affected s) (st : Step target affected s u) : Inv target affected u := by
  cases st with
  | fail e hw =>
    refine ⟨fun k hk => ⟨?_, (h.fut k hk).2⟩, fun k hk => ?_, ?_, ?_, h.ask, h.ans, h.pend, ?_, h.told, h.events, h.reader⟩
    · show upd s.pc s.cur _ k = _
      rw [upd_other _ _ (by show k ≠ s.cur; have : s.cur < k := hk; omega)]; exact (h.fut k hk).1
    · show upd s.pc s.cur _ k = _ ∨ upd s.pc s.cur _ k = _
      rw [upd_other _ _ (by have : k < s.cur := hk; omega)]; exact h.past k hk
    · show upd s.pc s.cur _ s.cur ≠ _
      rw [upd_same]; intro e; cases e
    · show s.errCl s.cur = true ↔ upd s.pc s.cur _ s.cur = _ ∨ upd s.pc s.cur _ s.cur = _
      rw [upd_same, h.err, hw]; simp
    · show s.sent.length ≤ s.cur + reported (upd s.pc s.cur _ s.cur)
      have := h.len
      rw [hw] at this
      rw [upd_same]; exact this
  | finish hw =>
    refine ⟨fun k hk => ⟨?_, (h.fut k hk).2⟩, fun k hk => ?_, ?_, ?_, h.ask, h.ans, h.pend, ?_, h.told, h.events, h.reader⟩
    · show upd s.pc s.cur _ k = _
      rw [upd_other _ _ (by show k ≠ s.cur; have : s.cur < k := hk; omega)]; exact (h.fut k hk).1
    · show upd s.pc s.cur _ k = _ ∨ upd s.pc s.cur _ k = _
      rw [upd_other _ _ (by have : k < s.cur := hk; omega)]; exact h.past k hk
    · show upd s.pc s.cur _ s.cur ≠ _
      rw [upd_same]; intro e; cases e
    · show s.errCl s.cur = true ↔ upd s.pc s.cur _ s.cur = _ ∨ upd s.pc s.cur _ s.cur = _
      rw [upd_same, h.err, hw]; simp
    · show s.sent.length ≤ s.cur + reported (upd s.pc s.cur _ s.cur)
      have := h.len
      rw [hw] at this
      rw [upd_same]; exact Nat.le_trans this (Nat.le_succ _)
  | report e hw hs =>
    refine ⟨fun k hk => ⟨?_, (h.fut k hk).2⟩, fun k hk => ?_, ?_, ?_, ?_, ?_, ?_, ?_, h.told, h.events, h.reader⟩
    · show upd s.pc s.cur _ k = _
      rw [upd_other _ _ (by show k ≠ s.cur; have : s.cur < k := hk; omega)]; exact (h.fut k hk).1
    · show upd s.pc s.cur _ k = _ ∨ upd s.pc s.cur _ k = _
      rw [upd_other _ _ (by have : k < s.cur := hk; omega)]; exact h.past k hk
    · show upd s.pc s.cur _ s.cur ≠ _
      rw [upd_same]; intro e; cases e
    · show s.errCl s.cur = true ↔ upd s.pc s.cur _ s.cur = _ ∨ upd s.pc s.cur _ s.cur = _
      rw [upd_same, h.err, hw]; simp
    · intro hx; rcases hx with hx | hx <;> cases hx
    · rcases h.ans with ⟨h1, _⟩ | ⟨_, h2⟩
      · rw [hs] at h1; cases h1
      · exact Or.inr ⟨(by intro hx; cases hx), h2⟩
    · show s.sent ++ [e] = s.got ++ [e]
      have := h.pend
      rw [hs] at this
      rw [this]; simp [held]
    · show (s.sent ++ [e]).length ≤ s.cur + reported (upd s.pc s.cur _ s.cur)
      have := h.len
      rw [hw] at this
      rw [upd_same, List.length_append]; exact Nat.succ_le_succ this
  | direct e hw hr => rw [h.reader] at hr; cases hr
  | closeErr hw =>
    refine ⟨fun k hk => ⟨?_, ?_, (h.fut k hk).2.2⟩, fun k hk => ?_, ?_, ?_, ?_, h.ans, h.pend, ?_, h.told, h.events, h.reader⟩
    · show upd s.pc s.cur _ k = _
      rw [upd_other _ _ (by have : s.cur < k := hk; omega)]; exact (h.fut k hk).1
    · show upd s.errCl s.cur _ k = _
      rw [upd_other _ _ (by have : s.cur < k := hk; omega)]; exact (h.fut k hk).2.1
    · show upd s.pc s.cur _ k = _ ∨ upd s.pc s.cur _ k = _
      rw [upd_other _ _ (by have : k < s.cur := hk; omega)]; exact h.past k hk
    · show upd s.pc s.cur _ s.cur ≠ _
      rw [upd_same]; intro e; cases e
    · show upd s.errCl s.cur true s.cur = true ↔ upd s.pc s.cur _ s.cur = _ ∨ upd s.pc s.cur _ s.cur = _
      rw [upd_same, upd_same]; simp
    · intro _
      show upd s.errCl s.cur true s.cur = true
      rw [upd_same]
    · show s.sent.length ≤ s.cur + reported (upd s.pc s.cur _ s.cur)
      have := h.len
      rw [hw] at this
      rw [upd_same]; exact this
  | closeStop g hw =>
    have hg : g ≤ s.cur := by
      rcases Nat.lt_or_ge s.cur g with hc | hc
      · have := (h.fut g hc).1; rw [hw] at this; cases this
      · exact hc
    have hpc : (doCloseStop s g).pc s.cur = s.pc s.cur ∨ ((doCloseStop s g).pc s.cur = .gone ∧ s.pc s.cur = .closeStop) := by
      by_cases he : s.cur = g
      · right; subst he; exact ⟨upd_same _ _ _, hw⟩
      · left; exact upd_other _ _ he
    refine ⟨fun k hk => ⟨?_, (h.fut k hk).2.1, ?_⟩, fun k hk => ?_, ?_, ?_, h.ask, h.ans, h.pend, ?_, h.told, h.events, h.reader⟩
    · show upd s.pc g _ k = _
      rw [upd_other _ _ (by have : s.cur < k := hk; omega)]; exact (h.fut k hk).1
    · show upd s.stopCl s.cur _ k = _
      rw [upd_other _ _ (by have : s.cur < k := hk; omega)]; exact (h.fut k hk).2.2
    · show upd s.pc g _ k = _ ∨ upd s.pc g _ k = _
      by_cases he : k = g
      · subst he; right; exact upd_same _ _ _
      · rw [upd_other _ _ he]; exact h.past k hk
    · show (doCloseStop s g).pc s.cur ≠ _
      rcases hpc with e | ⟨e, _⟩ <;> rw [e]
      · exact h.live
      · intro hx; cases hx
    · show s.errCl s.cur = true ↔ (doCloseStop s g).pc s.cur = _ ∨ (doCloseStop s g).pc s.cur = _
      rcases hpc with e | ⟨e, e'⟩
      · rw [e]; exact h.err
      · rw [e, h.err, e']; simp
    · show s.sent.length ≤ s.cur + reported ((doCloseStop s g).pc s.cur)
      rcases hpc with e | ⟨e, e'⟩
      · rw [e]; exact h.len
      · have := h.len; rw [e'] at this; rw [e]; exact this
  | stop hw hs =>
    refine ⟨fun k hk => ⟨?_, (h.fut k hk).2⟩, fun k hk => ?_, ?_, ?_, h.ask, h.ans, h.pend, ?_, h.told, h.events, h.reader⟩
    · show upd s.pc s.cur _ k = _
      rw [upd_other _ _ (by have : s.cur < k := hk; omega)]; exact (h.fut k hk).1
    · show upd s.pc s.cur _ k = _ ∨ upd s.pc s.cur _ k = _
      rw [upd_other _ _ (by have : k < s.cur := hk; omega)]; exact h.past k hk
    · show upd s.pc s.cur _ s.cur ≠ _
      rw [upd_same]; intro e; cases e
    · show s.errCl s.cur = true ↔ upd s.pc s.cur _ s.cur = _ ∨ upd s.pc s.cur _ s.cur = _
      rw [upd_same, h.err, hw]; simp
    · show s.sent.length ≤ s.cur + reported (upd s.pc s.cur _ s.cur)
      have := h.len
      rw [hw] at this
      rw [upd_same]; exact this
  | forward e hs hr =>
    refine ⟨h.fut, h.past, h.live, h.err, ?_, ?_, ?_, h.len, h.told, h.events, h.reader⟩
    · intro hx; rcases hx with hx | hx <;> cases hx
    · rcases h.ans with ⟨h1, _⟩ | ⟨_, h2⟩
      · rw [hs] at h1; cases h1
      · exact Or.inr ⟨(by intro hx; cases hx), h2⟩
    · show s.sent = (s.got ++ [e]) ++ []
      have := h.pend
      rw [hs] at this
      rw [this]; simp [held]
  | notice hs hc =>
    refine ⟨h.fut, h.past, h.live, h.err, fun _ => hc, ?_, ?_, h.len, h.told, h.events, h.reader⟩
    · rcases h.ans with ⟨h1, _⟩ | ⟨_, h2⟩
      · rw [hs] at h1; cases h1
      · exact Or.inr ⟨(by intro hx; cases hx), h2⟩
    · have := h.pend
      rw [hs] at this
      exact this
  | no hs =>
    refine ⟨h.fut, h.past, h.live, h.err, fun _ => h.ask (Or.inl hs), ?_, ?_, h.len, ?_, h.events, h.reader⟩
    · rcases h.ans with ⟨h1, _⟩ | ⟨_, h2, h3⟩
      · rw [hs] at h1; cases h1
      · exact Or.inl ⟨rfl, by show s.closes + 1 = 1; omega, by show s.answers ++ [false] = _; rw [h3]; rfl⟩
    · have := h.pend
      rw [hs] at this
      exact this
    · intro ht
      have h1 := h.told ht
      rcases h.ans with ⟨h2, _⟩ | ⟨_, h2, _⟩
      · rw [hs] at h2; cases h2
      · omega
  | yes hs =>
    have herr := h.err.1 (h.ask (Or.inl hs))
    refine ⟨fun k hk => ⟨?_, ?_, ?_⟩, fun k hk => ?_, ?_, ?_, ?_, ?_, ?_, ?_, h.told, ?_, h.reader⟩
    · show upd s.pc (s.cur + 1) _ k = _
      have hk' : s.cur + 1 < k := hk
      rw [upd_other _ _ (by omega)]; exact (h.fut k (by omega)).1
    · have hk' : s.cur + 1 < k := hk
      exact (h.fut k (by omega)).2.1
    · have hk' : s.cur + 1 < k := hk
      exact (h.fut k (by omega)).2.2
    · show upd s.pc (s.cur + 1) _ k = _ ∨ upd s.pc (s.cur + 1) _ k = _
      have hk' : k < s.cur + 1 := hk
      rw [upd_other _ _ (by omega)]
      rcases Nat.lt_or_ge k s.cur with h1 | h1
      · exact h.past k h1
      · have : k = s.cur := by omega
        subst this; exact herr
    · show upd s.pc (s.cur + 1) _ (s.cur + 1) ≠ _
      rw [upd_same]; intro e; cases e
    · show s.errCl (s.cur + 1) = true ↔ upd s.pc (s.cur + 1) _ (s.cur + 1) = _ ∨ upd s.pc (s.cur + 1) _ (s.cur + 1) = _
      rw [upd_same, (h.fut (s.cur + 1) (by omega)).2.1]; simp
    · intro hx; rcases hx with hx | hx <;> cases hx
    · rcases h.ans with ⟨h1, _⟩ | ⟨_, h2, h3⟩
      · rw [hs] at h1; cases h1
      · exact Or.inr ⟨(by intro hx; cases hx), h2, by show s.answers ++ [true] = List.replicate (s.cur + 1) true; rw [h3, List.replicate_succ']⟩
    · have := h.pend
      rw [hs] at this
      exact this
    · show s.sent.length ≤ s.cur + 1 + reported (upd s.pc (s.cur + 1) _ (s.cur + 1))
      have := h.len
      rw [upd_same]
      rcases herr with e | e <;> rw [e] at this <;> exact this
    · show s.events ++ block target affected = (List.replicate (s.cur + 1) (block target affected)).flatten
      rw [h.events, List.replicate_succ', List.flatten_append]; simp
  | bind hr => rw [h.reader] at hr; cases hr
  | endOrig hr hc =>
    refine ⟨h.fut, h.past, h.live, h.err, h.ask, h.ans, h.pend, h.len, fun _ => ?_, h.events, h.reader⟩
    rcases h.ans with ⟨_, h1, _⟩ | ⟨_, h1, _⟩
    · exact h1
    · omega
  | endInc k hr hc => rw [h.reader] at hr; cases hr

theorem inv_run {s : St} (h : Run target affected (start .orig) s) : Inv target affected s := by
  generalize hs : start Reader.orig = s0 at h
  induction h with
  | nil => subst hs; exact inv_start
  | snoc _ st ih => exact inv_step ih st

/-! ## C195 -/

/-- C195: the previous stage receives the errors of the target, of all its resumptions, in the order in which they were sent, none twice and none lost: at most one is on its way, and none when the
previous stage sees the end. There is at most one error per goroutine of the target. -/
theorem C195_errors (target : Nat) (affected : List Nat) (s : St) (h : Run target affected (start .orig) s) :
    ∃ underway, s.sent = s.got ++ underway ∧ underway.length ≤ 1 ∧ (s.told = true → underway = []) ∧ s.sent.length ≤ s.answers.count true + 1 := by
  have hi := inv_run h
  refine ⟨held s.sniffer, hi.pend, by cases s.sniffer <;> simp [held], fun ht => ?_, ?_⟩
  · rcases hi.ans with ⟨h1, _⟩ | ⟨_, h1, _⟩
    · rw [h1]; rfl
    · have := hi.told ht; omega
  · have hl := hi.len
    have hr : reported (s.pc s.cur) ≤ 1 := by cases s.pc s.cur <;> simp [reported]
    have hc : s.answers.count true = s.cur := by
      rcases hi.ans with ⟨_, _, h1⟩ | ⟨_, _, h1⟩ <;> rw [h1] <;> simp
    omega

/-- C195: the channel that the previous stage reads is closed at most once, exactly when `shouldResumeNow` has answered no, which it does at most once and as its last answer. So as long as the
answers are yes the previous stage does not see that the target ends. -/
theorem C195_end (target : Nat) (affected : List Nat) (s : St) (h : Run target affected (start .orig) s) :
    (s.closes = if false ∈ s.answers then 1 else 0) ∧ (s.told = true → false ∈ s.answers) ∧
    (∃ n, s.answers = List.replicate n true ∨ s.answers = List.replicate n true ++ [false]) := by
  have hi := inv_run h
  rcases hi.ans with ⟨_, h1, h2⟩ | ⟨_, h1, h2⟩
  · have hm : false ∈ s.answers := by rw [h2]; simp
    exact ⟨by rw [if_pos hm, h1], fun _ => hm, s.cur, Or.inr h2⟩
  · have hm : false ∉ s.answers := by rw [h2]; simp
    refine ⟨by rw [if_neg hm, h1], fun ht => ?_, s.cur, Or.inl h2⟩
    have := hi.told ht
    omega

/-- The affected stages in the order in which they are treated. -/
theorem block_spec (target : Nat) (affected : List Nat) : ∃ order : List Nat, order.Perm affected ∧ order.Pairwise (fun a b => b ≤ a) ∧
    block target affected = order.map .prepare ++ [.relink] ++ order.map .resume ++ [.resume target] := by
  obtain ⟨r, e, p, q⟩ := Util.C55_qsort_sorts (fun a b : Nat => decide (a < b))
    ⟨by intro a; simp, by intro a b c h1 h2; simp only [decide_eq_true_eq] at *; omega, by intro a b c h1 h2; simp only [decide_eq_false_iff_not] at *; omega⟩ (fun _ => 0) affected
  refine ⟨r.reverse, (List.reverse_perm r).trans p, ?_, ?_⟩
  · rw [List.pairwise_reverse]
    exact q.imp (by intro a b h; simpa using h)
  · unfold block
    rw [e]
    rfl

/-- C195: every time the answer is yes, each of the affected stages is prepared once, from the last to the first, then the user's function links them, then each of them is resumed, from the last
to the first, and the target at the end. Nothing else is done to the stages. -/
theorem C195_order (target : Nat) (affected : List Nat) (s : St) (h : Run target affected (start .orig) s) :
    ∃ order : List Nat, order.Perm affected ∧ order.Pairwise (fun a b => b ≤ a) ∧
      s.events = (List.replicate (s.answers.count true) (order.map Ev.prepare ++ [.relink] ++ order.map .resume ++ [.resume target])).flatten := by
  have hi := inv_run h
  obtain ⟨order, h1, h2, h3⟩ := block_spec target affected
  refine ⟨order, h1, h2, ?_⟩
  have hc : s.answers.count true = s.cur := by
    rcases hi.ans with ⟨_, _, h1⟩ | ⟨_, _, h1⟩ <;> rw [h1] <;> simp
  rw [hi.events, hc, h3]

theorem Run.trans {s t u : St} (h1 : Run target affected s t) (h2 : Run target affected t u) : Run target affected s u := by
  induction h2 with
  | nil => exact h1
  | snoc _ st ih => exact .snoc ih st

/-- Non-vacuity: stage 1 fails with the error 7, is resumed together with the stages 3 and 2, fails with the error 8, and is not resumed. -/
example : ∃ s, Run 1 [2, 3] (start .orig) s ∧ s.got = [7, 8] ∧ s.told = true ∧ s.answers = [true, false] ∧
    s.events = [.prepare 3, .prepare 2, .relink, .resume 3, .resume 2, .resume 1] := by
  refine ⟨_, .snoc (.snoc (.snoc (.snoc (.snoc (.snoc (.snoc (.snoc (.snoc (.snoc (.snoc (.snoc (.snoc (.snoc (.nil _)
    (.fail _ 7 rfl)) (.report _ 7 rfl rfl)) (.forward _ 7 rfl rfl)) (.closeErr _ rfl)) (.closeStop _ 0 rfl)) (.notice _ rfl rfl)) (.yes _ rfl))
    (.fail _ 8 rfl)) (.report _ 8 rfl rfl)) (.forward _ 8 rfl rfl)) (.closeErr _ rfl)) (.notice _ rfl rfl)) (.no _ rfl)) (.endOrig _ rfl (Nat.zero_lt_one)), rfl, rfl, rfl, ?_⟩
  show [] ++ block 1 [2, 3] = _
  decide +kernel

/-! ## C196: what the resumed stage does -/

/-- **C196 is violated**: the goroutine of the target closes its error channel and then its stop channel (stage.go:381-385); if it is resumed between the two, the goroutine closes the stop channel of its
successor, which closes it again when it ends: a panic. -/
theorem C196_panic_violated (target : Nat) (affected : List Nat) : ∃ s, Run target affected (start .orig) s ∧ s.panicked = true := by
  exact ⟨_, .snoc (.snoc (.snoc (.snoc (.snoc (.snoc (.snoc (.snoc (.nil _) (.finish _ rfl)) (.closeErr _ rfl)) (.notice _ rfl rfl)) (.yes _ rfl)) (.closeStop _ 0 rfl))
    (.finish _ rfl)) (.closeErr _ rfl)) (.closeStop _ 1 rfl), rfl⟩

/-- The target has stopped by itself. -/
structure Hung (s : St) : Prop where
  cur : s.cur = 1
  pc : s.pc 1 = .stopped
  other : ∀ k, s.pc k = .work → False
  err : s.errCl 1 = false
  sniffer : s.sniffer = .recv
  reader : s.reader = .orig
  closes : s.closes = 0
  told : s.told = false

theorem hung_step {s u : St} (h : Hung s) (st : Step target affected s u) : Hung u := by
  have hc := h.cur
  cases st with
  | fail e hw => exact (h.other _ hw).elim
  | finish hw => exact (h.other _ hw).elim
  | report e hw hs => rw [hc, h.pc] at hw; cases hw
  | direct e hw hr => rw [h.reader] at hr; cases hr
  | closeErr hw => rw [hc, h.pc] at hw; cases hw
  | closeStop g hw =>
    have hg : g ≠ 1 := by rintro rfl; rw [h.pc] at hw; cases hw
    refine ⟨hc, ?_, fun k hk => ?_, h.err, h.sniffer, h.reader, h.closes, h.told⟩
    · show upd s.pc g _ 1 = _
      rw [upd_other _ _ (Ne.symm hg)]; exact h.pc
    · have hk' : upd s.pc g .gone k = .work := hk
      by_cases he : k = g
      · subst he; rw [upd_same] at hk'; cases hk'
      · rw [upd_other _ _ he] at hk'; exact h.other k hk'
  | stop hw hs => exact (h.other _ hw).elim
  | forward e hs hr => rw [h.sniffer] at hs; cases hs
  | notice hs hcl => rw [hc, h.err] at hcl; cases hcl
  | no hs => rw [h.sniffer] at hs; cases hs
  | yes hs => rw [h.sniffer] at hs; cases hs
  | bind hr => rw [h.reader] at hr; cases hr
  | endOrig hr hcl => rw [h.closes] at hcl; cases hcl
  | endInc k hr hcl => rw [h.reader] at hr; cases hr

theorem hung_run {s u : St} (h : Hung s) (r : Run target affected s u) : Hung u := by
  induction r with
  | nil => exact h
  | snoc _ st ih => exact hung_step ih st

/-- **C196 is violated**: or the resumed target reads from the closed stop channel and returns: it never processes anything, never closes its error channel, and the previous stage never sees its end,
whatever happens afterwards. -/
theorem C196_hang_violated (target : Nat) (affected : List Nat) : ∃ s, Run target affected (start .orig) s ∧ s.pc s.cur = .stopped ∧ s.answers = [true] ∧
    ∀ u, Run target affected s u → u.pc u.cur = .stopped ∧ u.told = false ∧ u.cur = 1 := by
  refine ⟨_, .snoc (.snoc (.snoc (.snoc (.snoc (.snoc (.nil _) (.finish _ rfl)) (.closeErr _ rfl)) (.notice _ rfl rfl)) (.yes _ rfl)) (.closeStop _ 0 rfl)) (.stop _ rfl rfl), rfl, rfl, fun u hu => ?_⟩
  have := hung_run ⟨rfl, rfl, fun k hk => ?_, rfl, rfl, rfl, rfl, rfl⟩ hu
  · exact ⟨by rw [this.cur]; exact this.pc, this.told, this.cur⟩
  · match k, hk with
    | 0, hk => (have h0 : Pc.gone = .work := hk); cases h0
    | 1, hk => (have h0 : Pc.stopped = .work := hk); cases h0
    | k + 2, hk =>
      simp [upd, start, doCloseStop, doResume] at hk

/-- The invariant of a careful run. -/
structure Calm (s : St) : Prop where
  past : ∀ k, k < s.cur → s.pc k = .gone
  stop : s.stopCl s.cur = true ↔ s.pc s.cur = .gone
  nostop : s.pc s.cur ≠ .stopped
  calm : s.panicked = false

theorem calm_step {s u : St} (hi : Inv target affected s) (h : Calm s) (st : Step target affected s u) (hc : u.cur = s.cur + 1 → s.pc s.cur = .gone) : Calm u := by
  have old : ∀ x : Pc, x ≠ .gone → s.pc s.cur ≠ .gone → x ≠ .stopped → (∀ k, k < s.cur → upd s.pc s.cur x k = .gone) ∧ (s.stopCl s.cur = true ↔ upd s.pc s.cur x s.cur = .gone) ∧
      upd s.pc s.cur x s.cur ≠ .stopped := by
    intro x hx hg hs
    refine ⟨fun k hk => ?_, ?_, ?_⟩
    · rw [upd_other _ _ (by omega)]; exact h.past k hk
    · rw [upd_same, h.stop]; exact ⟨fun e => absurd e hg, fun e => absurd e hx⟩
    · rw [upd_same]; exact hs
  cases st with
  | fail e hw => obtain ⟨a, b, c⟩ := old (.report e) (by intro e; cases e) (by rw [hw]; intro e; cases e) (by intro e; cases e); exact ⟨a, b, c, h.calm⟩
  | finish hw => obtain ⟨a, b, c⟩ := old .closeErr (by intro e; cases e) (by rw [hw]; intro e; cases e) (by intro e; cases e); exact ⟨a, b, c, h.calm⟩
  | report e hw hs => obtain ⟨a, b, c⟩ := old .closeErr (by intro e; cases e) (by rw [hw]; intro e; cases e) (by intro e; cases e); exact ⟨a, b, c, h.calm⟩
  | direct e hw hr => obtain ⟨a, b, c⟩ := old .closeErr (by intro e; cases e) (by rw [hw]; intro e; cases e) (by intro e; cases e); exact ⟨a, b, c, h.calm⟩
  | closeErr hw => obtain ⟨a, b, c⟩ := old .closeStop (by intro e; cases e) (by rw [hw]; intro e; cases e) (by intro e; cases e); exact ⟨a, b, c, h.calm⟩
  | closeStop g hw =>
    have hg : g = s.cur := by
      rcases Nat.lt_trichotomy g s.cur with h1 | h1 | h1
      · rw [h.past g h1] at hw; cases hw
      · exact h1
      · rw [(hi.fut g h1).1] at hw; cases hw
    subst hg
    have hs : s.stopCl s.cur = false := by
      cases hx : s.stopCl s.cur
      · rfl
      · have := h.stop.1 hx; rw [hw] at this; cases this
    refine ⟨fun k hk => ?_, ?_, ?_, ?_⟩
    · show upd s.pc s.cur _ k = _
      rw [upd_other _ _ (by have : k < s.cur := hk; omega)]; exact h.past k hk
    · show upd s.stopCl s.cur true s.cur = true ↔ upd s.pc s.cur _ s.cur = _
      rw [upd_same, upd_same]; simp
    · show upd s.pc s.cur _ s.cur ≠ _
      rw [upd_same]; intro e; cases e
    · show (s.panicked || s.stopCl s.cur) = false
      rw [h.calm, hs]; rfl
  | stop hw hs => rw [h.stop, hw] at hs; cases hs
  | forward e hs hr => exact ⟨h.past, h.stop, h.nostop, h.calm⟩
  | notice hs hcl => exact ⟨h.past, h.stop, h.nostop, h.calm⟩
  | no hs => exact ⟨h.past, h.stop, h.nostop, h.calm⟩
  | yes hs =>
    have hg := hc rfl
    refine ⟨fun k hk => ?_, ?_, ?_, h.calm⟩
    · show upd s.pc (s.cur + 1) _ k = _
      have hk' : k < s.cur + 1 := hk
      rw [upd_other _ _ (by omega)]
      rcases Nat.lt_or_ge k s.cur with h1 | h1
      · exact h.past k h1
      · have : k = s.cur := by omega
        subst this; exact hg
    · show s.stopCl (s.cur + 1) = true ↔ upd s.pc (s.cur + 1) _ (s.cur + 1) = _
      rw [upd_same, (hi.fut (s.cur + 1) (by omega)).2.2]; simp
    · show upd s.pc (s.cur + 1) _ (s.cur + 1) ≠ _
      rw [upd_same]; intro e; cases e
  | bind hr => exact ⟨h.past, h.stop, h.nostop, h.calm⟩
  | endOrig hr hcl => exact ⟨h.past, h.stop, h.nostop, h.calm⟩
  | endInc k hr hcl => exact ⟨h.past, h.stop, h.nostop, h.calm⟩

theorem calm_run {s : St} (h : CarefulRun target affected (start .orig) s) : Inv target affected s ∧ Calm s := by
  generalize hs : start Reader.orig = s0 at h
  induction h with
  | nil =>
    subst hs
    exact ⟨inv_start, fun k hk => absurd hk (Nat.not_lt_zero k), (by constructor <;> intro h <;> simp [start] at h), (by intro h; cases h), rfl⟩
  | snoc _ st hc ih => exact ⟨inv_step ih.1 st, calm_step ih.1 ih.2 st hc⟩

/-- **C196, what holds**: if the earlier goroutine of the target has returned whenever the target is resumed, then no channel is closed twice, the target never stops by itself, and as long as the previous
stage has not seen the end of the target something remains to be done: its work, its error, its end, the question whether to resume it, or the end of the channel. -/
theorem C196_careful_partial (target : Nat) (affected : List Nat) (s : St) (h : CarefulRun target affected (start .orig) s) :
    s.panicked = false ∧ s.pc s.cur ≠ .stopped ∧ (s.told = false → ∃ u, Step target affected s u ∧ u ≠ s) := by
  obtain ⟨hi, hc⟩ := calm_run h
  refine ⟨hc.calm, hc.nostop, fun ht => ?_⟩
  cases hsn : s.sniffer with
  | hold e =>
    refine ⟨_, .forward s e hsn hi.reader, fun he => ?_⟩
    have := congrArg St.sniffer he
    rw [hsn] at this; cases this
  | ask =>
    refine ⟨_, .no s hsn, fun he => ?_⟩
    have := congrArg St.sniffer he
    rw [hsn] at this; cases this
  | done =>
    rcases hi.ans with ⟨_, h1, _⟩ | ⟨h1, _⟩
    · refine ⟨_, .endOrig s hi.reader (by omega), fun he => ?_⟩
      have := congrArg St.told he
      rw [ht] at this; cases this
    · exact absurd hsn h1
  | recv =>
    have change : ∀ (x : Pc) (u : St), u.pc = upd s.pc s.cur x → s.pc s.cur ≠ x → u ≠ s := by
      intro x u hu hx he
      have h1 := congrArg (fun t => St.pc t s.cur) he
      rw [hu, upd_same] at h1
      exact hx h1.symm
    cases hp : s.pc s.cur with
    | idle => exact absurd hp hi.live
    | work => exact ⟨_, .finish s hp, change .closeErr _ rfl (by rw [hp]; intro e; cases e)⟩
    | report e => exact ⟨_, .report s e hp hsn, change .closeErr _ rfl (by rw [hp]; intro e; cases e)⟩
    | closeErr => exact ⟨_, .closeErr s hp, change .closeStop _ rfl (by rw [hp]; intro e; cases e)⟩
    | closeStop =>
      refine ⟨_, .notice s hsn (hi.err.2 (Or.inl hp)), fun he => ?_⟩
      have := congrArg St.sniffer he
      rw [hsn] at this; cases this
    | gone =>
      refine ⟨_, .notice s hsn (hi.err.2 (Or.inr hp)), fun he => ?_⟩
      have := congrArg St.sniffer he
      rw [hsn] at this; cases this
    | stopped => exact absurd hp hc.nostop

/-- Non-vacuity: a careful run with a resumption. -/
example : ∃ s, CarefulRun 1 [2] (start .orig) s ∧ s.cur = 1 ∧ s.told = false := by
  refine ⟨_, .snoc (.snoc (.snoc (.snoc (.snoc (.nil _) (.finish _ rfl) ?_) (.closeErr _ rfl) ?_) (.closeStop _ 0 rfl) ?_) (.notice _ rfl rfl) ?_) (.yes _ rfl) (fun _ => rfl), rfl, rfl⟩
  all_goals intro h; exact absurd h (by decide +kernel)

/-! ## C197: criss-cross links -/

/-- **C197 is violated**: with `LinkStagesCrissCross` or `LinkStagesDistribute` the goroutine that reads the errors evaluates the field `ErrCh` of the target when it is scheduled (stage.go:270), which can be
after `WithAutoResumeAtStage` has replaced it. Then the previous stages are told that the target has ended, although it is resumed and works. -/
theorem C197_end_violated (target : Nat) (affected : List Nat) : ∃ s, Run target affected (start .notYet) s ∧ s.told = true ∧ s.answers = [true] ∧ s.pc s.cur = .work := by
  exact ⟨_, .snoc (.snoc (.snoc (.snoc (.snoc (.snoc (.nil _) (.bind _ rfl)) (.finish _ rfl)) (.closeErr _ rfl)) (.notice _ rfl rfl)) (.yes _ rfl)) (.endInc _ 0 rfl rfl), rfl, rfl, rfl⟩

/-- The error is in the hands of the sniffer, and nobody reads its channel. -/
structure Lost (s : St) : Prop where
  cur : s.cur = 0
  pc : s.pc 0 = .closeErr ∨ s.pc 0 = .closeStop ∨ s.pc 0 = .gone
  other : ∀ k, 0 < k → s.pc k = .idle
  sniffer : s.sniffer = .hold 7
  reader : s.reader = .inc 0
  got : s.got = []
  sent : s.sent = [7]

theorem lost_step {s u : St} (h : Lost s) (st : Step target affected s u) : Lost u := by
  have hc := h.cur
  have no : ∀ x, (s.pc s.cur = x) → x = .closeErr ∨ x = .closeStop ∨ x = .gone := by
    intro x hx; rw [hc] at hx; rw [← hx]; exact h.pc
  cases st with
  | fail e hw => rcases no _ hw with e | e | e <;> cases e
  | finish hw => rcases no _ hw with e | e | e <;> cases e
  | report e hw hs => rcases no _ hw with e | e | e <;> cases e
  | direct e hw hr => rcases no _ hw with e | e | e <;> cases e
  | closeErr hw =>
    refine ⟨hc, ?_, fun k hk => ?_, h.sniffer, h.reader, h.got, h.sent⟩
    · show upd s.pc s.cur _ 0 = _ ∨ upd s.pc s.cur _ 0 = _ ∨ upd s.pc s.cur _ 0 = _
      rw [hc, upd_same]; exact Or.inr (Or.inl rfl)
    · show upd s.pc s.cur _ k = _
      rw [upd_other _ _ (by omega)]; exact h.other k hk
  | closeStop g hw =>
    have hg : g = 0 := by
      rcases Nat.eq_zero_or_pos g with e | e
      · exact e
      · rw [h.other g e] at hw; cases hw
    subst hg
    refine ⟨hc, ?_, fun k hk => ?_, h.sniffer, h.reader, h.got, h.sent⟩
    · show upd s.pc 0 _ 0 = _ ∨ upd s.pc 0 _ 0 = _ ∨ upd s.pc 0 _ 0 = _
      rw [upd_same]; exact Or.inr (Or.inr rfl)
    · show upd s.pc 0 _ k = _
      rw [upd_other _ _ (by omega)]; exact h.other k hk
  | stop hw hs => rcases no _ hw with e | e | e <;> cases e
  | forward e hs hr => rw [h.reader] at hr; cases hr
  | notice hs hcl => rw [h.sniffer] at hs; cases hs
  | no hs => rw [h.sniffer] at hs; cases hs
  | yes hs => rw [h.sniffer] at hs; cases hs
  | bind hr => rw [h.reader] at hr; cases hr
  | endOrig hr hcl => rw [h.reader] at hr; cases hr
  | endInc k hr hcl => exact ⟨hc, h.pc, h.other, h.sniffer, h.reader, h.got, h.sent⟩

theorem lost_run {s u : St} (h : Lost s) (r : Run target affected s u) : Lost u := by
  induction r with
  | nil => exact h
  | snoc _ st ih => exact lost_step ih st

/-- **C197 is violated**: or the previous stages are told that the target ended well, and its error is never received by anybody, whatever happens afterwards. -/
theorem C197_lost_violated (target : Nat) (affected : List Nat) : ∃ s, Run target affected (start .notYet) s ∧ s.told = true ∧ s.sent = [7] ∧
    ∀ u, Run target affected s u → u.sent = [7] ∧ u.got = [] := by
  refine ⟨_, .snoc (.snoc (.snoc (.snoc (.snoc (.nil _) (.bind _ rfl)) (.fail _ 7 rfl)) (.report _ 7 rfl rfl)) (.closeErr _ rfl)) (.endInc _ 0 rfl rfl), rfl, rfl, fun u hu => ?_⟩
  have := lost_run ⟨rfl, Or.inr (Or.inl rfl), fun k hk => ?_, rfl, rfl, rfl, rfl⟩ hu
  · exact ⟨this.sent, this.got⟩
  · have hk' : k ≠ 0 := by omega
    simp [upd, start, hk']

/-- **C197, what holds**: if the goroutine has evaluated the field before it is replaced, or with the other links (`LinkStagesAt`, `LinkStagesFanOut`), the previous stages see the end of the target only if it is
not resumed, and by then have all its errors. -/
theorem C197_early_partial (target : Nat) (affected : List Nat) (s : St) (h : Run target affected (start .orig) s) (ht : s.told = true) :
    false ∈ s.answers ∧ s.got = s.sent := by
  refine ⟨(C195_end target affected s h).2.1 ht, ?_⟩
  obtain ⟨w, h1, _, h2, _⟩ := C195_errors target affected s h
  rw [h1, h2 ht, List.append_nil]

end Fpki.AutoResume
