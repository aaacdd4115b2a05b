import Verif.Props.Stage

/-!
# C40: outputs reach their own channel exactly once
-/
namespace Fpki.Stage
open Fpki.Util

/-- The slices returned by a stage function fit together: as many channels as values, or at most one value and a
channel for it. -/
def Fit (outs : List ω) (chs : List Nat) : Prop := outs.length = chs.length ∨ (outs.length ≤ 1 ∧ outs.length ≤ chs.length)

/-- All functions return fitting slices. -/
def Fits (fns : Fns σ ι ω) : Prop :=
  (∀ f x, Fit (fns.process f x).2.1 (fns.process f x).2.2.1) ∧ (∀ f, Fit (fns.stream f).2.1 (fns.stream f).2.2.1) ∧
  ∀ f, Fit (fns.noMoreData f).2.1 (fns.noMoreData f).2.2.1

theorem Fit.le {outs : List ω} {chs : List Nat} (h : Fit outs chs) : outs.length ≤ chs.length := by
  rcases h with h | h <;> omega

theorem Fit.pairs_length {outs : List ω} {chs : List Nat} (h : Fit outs chs) : (pairs outs chs).length = outs.length := by
  have := h.le
  unfold pairs; simp; omega

theorem pairs_get {outs : List ω} {chs : List Nat} {i c : Nat} {x : ω} (hx : outs[i]? = some x) (hc : chs[i]? = some c) :
    (pairs outs chs)[i]? = some (c, x) := by
  unfold pairs
  rw [List.getElem?_zip_eq_some]
  exact ⟨hc, hx⟩

/-- What a call of `sendOutputs` still has to send. -/
def Snd.rest : Snd ω → List (Nat × ω)
  | .indices outs chs pending => pending.filterMap (fun i => (pairs outs chs)[i]?)
  | .round outs chs _ done _ => keepOthers (pairs outs chs) done

def Snd.Ok : Snd ω → Prop
  | .indices outs chs pending => Fit outs chs ∧ ∀ p ∈ pending, p < outs.length
  | .round outs chs i done _ => Fit outs chs ∧ done.Nodup ∧ (∀ x ∈ done, x < i) ∧ i ≤ outs.length

/-- Everything produced is sent, still to send or lost; and nothing is lost as long as no error came and nobody stopped the
stage. -/
def Acc (s : St σ ι ω) (rest : List (Nat × ω)) : Prop :=
  ∃ lost, (s.sent ++ rest ++ lost).Perm s.produced ∧ (s.sendingError = false → s.shouldReturn = false → lost = [])

def Inv40 (s : St σ ι ω) : Prop :=
  match s.phase with
  | .reading => Acc s [] ∧ s.sendingError = false ∧ s.shouldReturn = false
  | .sending snd _ _ => snd.Ok ∧ Acc s snd.rest
  | .stopped => Acc s []
  | .broken => Acc s [] ∧ s.shouldReturn = false

theorem rest_start (m : Mode) {outs : List ω} {chs : List Nat} (h : Fit outs chs) :
    (Snd.start m outs chs).rest = pairs outs chs ∧ (Snd.start m outs chs).Ok := by
  have e : (Snd.indices outs chs (List.range outs.length)).rest = pairs outs chs := by
    have := keepOthers_nil (pairs outs chs)
    unfold keepOthers at this
    rw [h.pairs_length] at this
    simpa [Snd.rest] using this
  have o : (Snd.indices outs chs (List.range outs.length)).Ok := ⟨h, fun p hp => by simpa using hp⟩
  cases m with
  | sequential => exact ⟨e, o⟩
  | concurrent => exact ⟨e, o⟩
  | cycles => exact ⟨keepOthers_nil _, h, .nil, by simp, Nat.zero_le _⟩

theorem inv40_start {m : Mode} {s : St σ ι ω} {outs : List ω} {chs : List Nat} (h : Fit outs chs) {p0 : List (Nat × ω)}
    (hp : s.produced = p0 ++ pairs outs chs) (hs : s.sent.Perm p0) {res : Res} {brk : Bool}
    (hph : s.phase = .sending (Snd.start m outs chs) res brk) : Inv40 s := by
  unfold Inv40
  rw [hph]
  obtain ⟨e, o⟩ := rest_start m h
  refine ⟨o, [], ?_, fun _ _ => rfl⟩
  rw [e, hp, List.append_nil]
  exact hs.append_right _

theorem Acc.perm {s : St σ ι ω} (h : Acc s []) (h1 : s.sendingError = false) (h2 : s.shouldReturn = false) : s.sent.Perm s.produced := by
  obtain ⟨lost, hp, hl⟩ := h
  rw [hl h1 h2] at hp
  simpa using hp

theorem inv40_afterCall {m : Mode} {s : St σ ι ω} (hs : s.sent.Perm s.produced) (hr : s.shouldReturn = false)
    (r : σ × List ω × List Nat × Res) (brk : Bool) (hf : Fit r.2.1 r.2.2.1) : Inv40 (afterCall m s r brk) := by
  obtain ⟨f, outs, chs, res⟩ := r
  cases res with
  | fail e => exact ⟨⟨[], by rw [List.append_nil, List.append_nil]; exact hs, fun _ _ => rfl⟩, hr⟩
  | ok => exact inv40_start (m := m) (res := .ok) (outs := outs) (chs := chs) (brk := brk || false) hf rfl hs rfl
  | stream => exact inv40_start (m := m) (res := .stream) (outs := outs) (chs := chs) (brk := brk || false) hf rfl hs rfl
  | noMore => exact inv40_start (m := m) (res := .noMore) (outs := outs) (chs := chs) (brk := brk || true) hf rfl hs rfl

theorem inv40_afterSend {fns : Fns σ ι ω} {m : Mode} (hf : Fits fns) {s : St σ ι ω} (h : Acc s []) (res : Res) (brk : Bool) :
    Inv40 (afterSend fns m s res brk) := by
  unfold afterSend
  by_cases h1 : s.shouldReturn = true
  · rw [if_pos h1]; exact h
  rw [if_neg h1]
  have h1' : s.shouldReturn = false := by simpa using h1
  by_cases h2 : (brk || s.sendingError) = true
  · rw [if_pos h2]; exact ⟨h, h1'⟩
  rw [if_neg h2]
  have h2' : s.sendingError = false := by
    cases hb : s.sendingError with
    | true => rw [hb] at h2; simp at h2
    | false => rfl
  cases res with
  | ok => exact ⟨h, h2', h1'⟩
  | noMore => exact ⟨h, h2', h1'⟩
  | fail e => exact ⟨h, h2', h1'⟩
  | stream =>
    exact inv40_start (m := m) (outs := (fns.stream s.fns).2.1) (chs := (fns.stream s.fns).2.2.1) (brk := brk) (hf.2.1 _) rfl
      (h.perm h2' h1') rfl

/-- Removing the completed positions from the two slices: what is left is still fitting, and is what was left to send. -/
theorem remove_fit {rnd1 rnd2 : Nat → Nat} {outs outs' : List ω} {chs chs' done : List Nat} (h : Fit outs chs)
    (hn : done.Nodup) (hb : ∀ x ∈ done, x < outs.length)
    (ho : removeElements rnd1 outs done = some outs') (hc : removeElements rnd2 chs done = some chs') :
    Fit outs' chs' ∧ (pairs outs' chs').Perm (keepOthers (pairs outs chs) done) := by
  rcases h with h | ⟨h1, h2⟩
  · have := remove_pairs h hn hb ho hc
    exact ⟨.inl this.1, this.2⟩
  · cases hd : done with
    | nil =>
      subst hd
      rw [removeElements_none] at ho hc
      cases ho; cases hc
      rw [keepOthers_nil]
      exact ⟨.inr ⟨h1, h2⟩, List.Perm.refl _⟩
    | cons d ds =>
      subst hd
      have hd0 := hb d List.mem_cons_self
      rw [removeElements_all (by simp; omega)] at ho
      cases ho
      refine ⟨.inr ⟨by simp, by simp⟩, ?_⟩
      have hl : (pairs outs chs).length = 1 := by unfold pairs; simp; omega
      have : keepOthers (pairs outs chs) (d :: ds) = [] := by
        unfold keepOthers
        rw [hl]
        have : d = 0 := by omega
        subst this
        simp
      rw [this]
      simp [pairs]

theorem inv40_step {fns : Fns σ ι ω} {m : Mode} (hf : Fits fns) {s t : St σ ι ω} (inv : Inv40 s) (st : Step fns m s t) : Inv40 t := by
  unfold Inv40 at inv
  cases st with
  | stop h => rw [h] at inv; exact inv.1
  | nextErr h => rw [h] at inv; exact ⟨inv.1, inv.2.2⟩
  | input x rest h hi =>
    rw [h] at inv
    apply inv40_afterCall
    · exact inv.1.perm inv.2.1 inv.2.2
    · exact inv.2.2
    · exact hf.1 _ _
  | closed h hi =>
    rw [h] at inv
    exact inv40_afterCall (inv.1.perm inv.2.1 inv.2.2) inv.2.2 _ _ (hf.2.2 _)
  | send outs chs pre post i c x res brk h hm hx hc =>
    rw [h] at inv
    obtain ⟨⟨hfit, hlt⟩, lost, hp, hl⟩ := inv
    refine ⟨⟨hfit, fun p hp => hlt p (by simp at hp ⊢; tauto)⟩, lost, ?_, hl⟩
    refine List.Perm.trans ?_ hp
    simp only [Snd.rest, List.filterMap_append, List.filterMap_cons, pairs_get hx hc]
    apply List.Perm.append_right
    rw [List.append_assoc]
    apply List.Perm.append_left
    simp only [List.cons_append, List.nil_append]
    exact List.perm_middle.symm
  | sendErr outs chs pre post i res brk h hm =>
    rw [h] at inv
    obtain ⟨⟨hfit, hlt⟩, lost, hp, hl⟩ := inv
    have hi : i < (pairs outs chs).length := by rw [hfit.pairs_length]; exact hlt i (by simp)
    refine ⟨⟨hfit, fun p hp => hlt p (by simp at hp ⊢; tauto)⟩, (pairs outs chs)[i] :: lost, ?_, fun h => by cases h⟩
    refine List.Perm.trans ?_ hp
    simp only [Snd.rest, List.filterMap_append, List.filterMap_cons, List.getElem?_eq_getElem hi]
    simp only [List.append_assoc, List.cons_append]
    apply List.Perm.append_left
    apply List.Perm.append_left
    exact List.perm_middle
  | sendStop outs chs pre post i res brk h hm =>
    rw [h] at inv
    obtain ⟨⟨hfit, hlt⟩, lost, hp, hl⟩ := inv
    have hi : i < (pairs outs chs).length := by rw [hfit.pairs_length]; exact hlt i (by simp)
    refine ⟨⟨hfit, fun p hp => hlt p (by simp at hp ⊢; tauto)⟩, (pairs outs chs)[i] :: lost, ?_, fun _ h => by cases h⟩
    refine List.Perm.trans ?_ hp
    simp only [Snd.rest, List.filterMap_append, List.filterMap_cons, List.getElem?_eq_getElem hi]
    simp only [List.append_assoc, List.cons_append]
    apply List.Perm.append_left
    apply List.Perm.append_left
    exact List.perm_middle
  | sendDone outs chs res brk h =>
    rw [h] at inv
    exact inv40_afterSend hf inv.2 _ _
  | trySend outs chs done i c x res brk h hx hcx =>
    rw [h] at inv
    obtain ⟨⟨hfit, hn, hlt, hil⟩, lost, hp, hl⟩ := inv
    have hi : i < outs.length := (List.getElem?_eq_some_iff.1 hx).1
    have hid : i ∉ done := fun h => absurd (hlt i h) (by omega)
    refine ⟨⟨hfit, ?_, ?_, hi⟩, lost, ?_, hl⟩
    · rw [List.nodup_append]
      exact ⟨hn, by simp, by rintro a ha b hb rfl; simp at hb; exact hid (hb ▸ ha)⟩
    · intro y hy
      rcases List.mem_append.1 hy with hy | hy
      · exact Nat.lt_succ_of_lt (hlt y hy)
      · simp at hy; omega
    · refine List.Perm.trans ?_ hp
      apply List.Perm.append_right
      show ((s.sent ++ [(c, x)]) ++ keepOthers _ _).Perm _
      rw [List.append_assoc]
      apply List.Perm.append_left
      exact keepOthers_concat (pairs_get hx hcx) hid
  | tryErr outs chs done i res brk h hi =>
    rw [h] at inv
    obtain ⟨⟨hfit, hn, hlt, hil⟩, lost, hp, hl⟩ := inv
    exact ⟨⟨hfit, hn, fun x hx => Nat.lt_trans (hlt x hx) hi, Nat.le_refl _⟩, lost, hp, hl⟩
  | tryStop outs chs done i res brk h hi =>
    rw [h] at inv
    obtain ⟨⟨hfit, hn, hlt, hil⟩, lost, hp, hl⟩ := inv
    exact ⟨⟨hfit, hn, fun x hx => Nat.lt_succ_of_lt (hlt x hx), hi⟩, lost, hp, fun _ h => by cases h⟩
  | notReady outs chs done i res brk h hi =>
    rw [h] at inv
    obtain ⟨⟨hfit, hn, hlt, hil⟩, lost, hp, hl⟩ := inv
    exact ⟨⟨hfit, hn, fun x hx => Nat.lt_succ_of_lt (hlt x hx), hi⟩, lost, hp, hl⟩
  | nextRound outs outs' chs chs' done i res brk rnd1 rnd2 h hi ho hc =>
    rw [h] at inv
    obtain ⟨⟨hfit, hn, hlt, hil⟩, lost, hp, hl⟩ := inv
    obtain ⟨hfit', hperm⟩ := remove_fit hfit hn (fun x hx => hi ▸ hlt x hx) ho hc
    refine ⟨⟨hfit', .nil, by simp, Nat.zero_le _⟩, lost, ?_, hl⟩
    refine List.Perm.trans ?_ hp
    apply List.Perm.append_right
    apply List.Perm.append_left
    show (keepOthers _ []).Perm _
    rw [keepOthers_nil]
    exact hperm
  | lastRound outs outs' chs chs' done i b res brk rnd1 rnd2 h hi ho hc hend =>
    rw [h] at inv
    obtain ⟨⟨hfit, hn, hlt, hil⟩, lost, hp, hl⟩ := inv
    obtain ⟨hfit', hperm⟩ := remove_fit hfit hn (fun x hx => hi ▸ hlt x hx) ho hc
    apply inv40_afterSend hf
    refine ⟨pairs outs' chs' ++ lost, ?_, ?_⟩
    · refine List.Perm.trans ?_ hp
      rw [List.append_nil, ← List.append_assoc]
      exact (hperm.append_left _).append_right _
    · intro he hr
      simp only [Bool.or_eq_false_iff] at he
      rcases hend with h | h | h
      · rw [hl he.1 hr, h]; simp [pairs]
      · have : s.shouldReturn = false := hr
        rw [h] at this; cases this
      · rw [h] at he; cases he.2

theorem inv40_run {fns : Fns σ ι ω} {m : Mode} (hf : Fits fns) {f : σ} {input : List ι} {errs : List Err} {s : St σ ι ω}
    (h : Run fns m (St.init f input errs) s) : Inv40 s := by
  induction h with
  | refl => exact ⟨⟨[], by simp [St.init], fun _ _ => rfl⟩, rfl, rfl⟩
  | step _ st ih => exact inv40_step hf ih st

/-- C40: for every sending mode, every readiness of the channels (schedule) and all stage functions: whenever the stage is back
at reading its input, and when it ends without an error while sending, the values sent, with the channel each one was sent to,
are exactly the values the functions returned paired with the channels they returned: each one once, none lost. -/
theorem C40_exactly_once {fns : Fns σ ι ω} {m : Mode} (hf : Fits fns) {f : σ} {input : List ι} {errs : List Err} {s : St σ ι ω}
    (h : Run fns m (St.init f input errs) s)
    (hp : s.phase = .reading ∨ (s.phase = .broken ∧ s.sendingError = false)) : s.sent.Perm s.produced := by
  have inv := inv40_run hf h
  unfold Inv40 at inv
  rcases hp with hp | ⟨hp, he⟩
  · rw [hp] at inv; exact inv.1.perm inv.2.1 inv.2.2
  · rw [hp] at inv; exact inv.1.perm he inv.2

/-- C40: at every moment, whatever errors and stop requests arrive, no value is sent more often than it was returned, nor to another
channel. -/
theorem C40_at_most_once [DecidableEq ω] {fns : Fns σ ι ω} {m : Mode} (hf : Fits fns) {f : σ} {input : List ι} {errs : List Err}
    {s : St σ ι ω} (h : Run fns m (St.init f input errs) s) (p : Nat × ω) : s.sent.count p ≤ s.produced.count p := by
  have inv := inv40_run hf h
  have key : ∀ {rest}, Acc s rest → s.sent.count p ≤ s.produced.count p := by
    rintro rest ⟨lost, hp, _⟩
    rw [← hp.count_eq, List.count_append, List.count_append]
    omega
  unfold Inv40 at inv
  cases hph : s.phase with
  | reading => rw [hph] at inv; exact key inv.1
  | sending snd res brk => rw [hph] at inv; exact key inv.2
  | stopped => rw [hph] at inv; exact key inv
  | broken => rw [hph] at inv; exact key inv.1

/-- C40: the bookkeeping of sending never goes out of range and never fails: every index still to send has a value and a channel, and
the completed positions can be removed from both slices. -/
theorem C40_no_panic {fns : Fns σ ι ω} {m : Mode} (hf : Fits fns) {f : σ} {input : List ι} {errs : List Err} {s : St σ ι ω}
    (h : Run fns m (St.init f input errs) s) :
    (∀ outs chs pending res brk, s.phase = .sending (.indices outs chs pending) res brk →
      ∀ i ∈ pending, i < outs.length ∧ i < chs.length) ∧
    (∀ outs chs i done b res brk, s.phase = .sending (.round outs chs i done b) res brk →
      (i < outs.length → i < chs.length) ∧ i ≤ outs.length ∧
      ∀ rnd, (removeElements rnd outs done).isSome ∧ (removeElements rnd chs done).isSome) := by
  have inv := inv40_run hf h
  unfold Inv40 at inv
  refine ⟨fun outs chs pending res brk hp i hi => ?_, fun outs chs i done b res brk hp => ?_⟩
  · rw [hp] at inv
    have := inv.1.1.le
    have := inv.1.2 i hi
    omega
  · rw [hp] at inv
    obtain ⟨⟨hfit, hn, hlt, hil⟩, _⟩ := inv
    have := hfit.le
    refine ⟨fun h => by omega, hil, fun rnd => ⟨?_, ?_⟩⟩
    · obtain ⟨r, e, _⟩ := C64_remove_elements rnd outs done hn (fun x hx => Nat.lt_of_lt_of_le (hlt x hx) hil)
      rw [e]; rfl
    · obtain ⟨r, e, _⟩ := C64_remove_elements rnd chs done hn (fun x hx => by have := hlt x hx; omega)
      rw [e]; rfl

/-- A stage function that keeps no state and returns no error. -/
def stateless (p : ι → List ω × List Nat) : Fns Unit ι ω where
  process _ x := ((), (p x).1, (p x).2, .ok)
  stream _ := ((), [], [], .ok)
  noMoreData _ := ((), [], [], .ok)

/-- C40 seen from outside, for a stage function without state: every input taken from the channel, in order, has its outputs delivered
exactly once to the channels the function named. -/
theorem C40_stateless {p : ι → List ω × List Nat} (hp : ∀ x, Fit (p x).1 (p x).2) {m : Mode} {input : List ι} {errs : List Err}
    {s : St Unit ι ω} (h : Run (stateless p) m (St.init () input errs) s)
    (hph : s.phase = .reading ∨ (s.phase = .broken ∧ s.sendingError = false)) :
    s.processed ++ s.input = input ∧ s.sent.Perm (s.processed.flatMap (fun x => (p x).2.zip (p x).1)) := by
  have hf : Fits (stateless p) := ⟨fun _ x => hp x, fun _ => .inl rfl, fun _ => .inl rfl⟩
  have key : s.processed ++ s.input = input ∧ s.produced = s.processed.flatMap (fun x => (p x).2.zip (p x).1) := by
    clear hph
    induction h with
    | refl => exact ⟨by simp [St.init], rfl⟩
    | @step t u hr st ih =>
      have aft : ∀ (v : St Unit ι ω) res brk, (afterSend (stateless p) m v res brk).processed = v.processed ∧
          (afterSend (stateless p) m v res brk).input = v.input ∧ (afterSend (stateless p) m v res brk).produced = v.produced := by
        intro v res brk
        unfold afterSend
        split
        · exact ⟨rfl, rfl, rfl⟩
        · split
          · exact ⟨rfl, rfl, rfl⟩
          · split
            · exact ⟨rfl, rfl, by simp [stateless, pairs]⟩
            · exact ⟨rfl, rfl, rfl⟩
      cases st with
      | stop h => exact ih
      | nextErr h => exact ih
      | input x rest h hi =>
        refine ⟨?_, ?_⟩
        · rw [← ih.1, hi]; simp [afterCall, stateless]
        · simp [afterCall, stateless, pairs, ih.2]
      | closed h hi =>
        exact ⟨ih.1, by simp [afterCall, stateless, pairs, ih.2]⟩
      | send outs chs pre post i c x res brk h => exact ih
      | sendErr outs chs pre post i res brk h => exact ih
      | sendStop outs chs pre post i res brk h => exact ih
      | sendDone outs chs res brk h => rw [(aft t res brk).1, (aft t res brk).2.1, (aft t res brk).2.2]; exact ih
      | trySend outs chs done i c x res brk h => exact ih
      | tryErr outs chs done i res brk h => exact ih
      | tryStop outs chs done i res brk h => exact ih
      | notReady outs chs done i res brk h => exact ih
      | nextRound outs outs' chs chs' done i res brk rnd1 rnd2 h => exact ih
      | lastRound outs outs' chs chs' done i b res brk rnd1 rnd2 h =>
        rw [(aft _ res brk).1, (aft _ res brk).2.1, (aft _ res brk).2.2]; exact ih
  exact ⟨key.1, key.2 ▸ C40_exactly_once hf h hph⟩

/-! ### A concrete run -/

/-- Three outputs to the channels 4, 5, 6. -/
def three : Nat → List Nat × List Nat := fun x => ([x, x + 1, x + 2], [4, 5, 6])

theorem three_fits (x : Nat) : Fit (three x).1 (three x).2 := .inl rfl

/-- In the first round only the second channel is ready, then the first one of the shortened slices, then the last one. -/
example : ∃ s, Run (stateless three) .cycles (St.init () [10] []) s ∧ s.phase = .reading ∧ s.sent = [(5, 11), (4, 10), (6, 12)] := by
  let S (ph : Phase Nat) (sent : List (Nat × Nat)) : St Unit Nat Nat :=
    ⟨(), ph, [], [], sent, .nil, false, false, [10], [(4, 10), (5, 11), (6, 12)], none, none, []⟩
  have r1 : Run (stateless three) .cycles (St.init () [10] []) (S (.sending (.round [10, 11, 12] [4, 5, 6] 0 [] false) .ok false) []) :=
    .step (.refl _) (.input _ 10 [] rfl rfl)
  have r2 := r1.step (u := S (.sending (.round [10, 11, 12] [4, 5, 6] 1 [] false) .ok false) [])
    (.notReady _ [10, 11, 12] [4, 5, 6] [] 0 .ok false rfl (by simp))
  have r3 := r2.step (u := S (.sending (.round [10, 11, 12] [4, 5, 6] 2 [1] false) .ok false) [(5, 11)])
    (.trySend _ [10, 11, 12] [4, 5, 6] [] 1 5 11 .ok false rfl rfl rfl)
  have r4 := r3.step (u := S (.sending (.round [10, 11, 12] [4, 5, 6] 3 [1] false) .ok false) [(5, 11)])
    (.notReady _ [10, 11, 12] [4, 5, 6] [1] 2 .ok false rfl (by simp))
  have r5 := r4.step (u := S (.sending (.round [10, 12] [4, 6] 0 [] false) .ok false) [(5, 11)])
    (.nextRound _ [10, 11, 12] [10, 12] [4, 5, 6] [4, 6] [1] 3 .ok false id id rfl rfl (by decide +kernel) (by decide +kernel) (by simp) rfl)
  have r6 := r5.step (u := S (.sending (.round [10, 12] [4, 6] 1 [0] false) .ok false) [(5, 11), (4, 10)])
    (.trySend _ [10, 12] [4, 6] [] 0 4 10 .ok false rfl rfl rfl)
  have r7 := r6.step (u := S (.sending (.round [10, 12] [4, 6] 2 [0, 1] false) .ok false) [(5, 11), (4, 10), (6, 12)])
    (.trySend _ [10, 12] [4, 6] [0] 1 6 12 .ok false rfl rfl rfl)
  exact ⟨S .reading [(5, 11), (4, 10), (6, 12)], r7.step (.lastRound _ [10, 12] [] [4, 6] [] [0, 1] 2 false .ok false id id rfl rfl
    (removeElements_all (by simp)) (removeElements_all (by simp)) (.inl rfl)), rfl, rfl⟩

end Fpki.Stage
