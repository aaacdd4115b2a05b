import Verif.Lemmas.LayersNoFail
/-! # Pipelines in layers in which functions fail: no deadlock, and the first error is not lost. -/
namespace Fpki.Layers
open Fpki.Stage (Mode)
open Fpki.Pipe (Outcome Call Fn Phase upd afterCall afterEnd afterSent report allowed dropAt recv upd_self upd_ne upd_apply forall_upd Batch ended outClosed_ended
  allowed_zero least_or greatest_or CallAll PhaseAll Hereditary recv_shape afterCall_shape afterEnd_shape dropAt_keeps report_ne carry carry_recv carry_afterCall carry_afterEnd carry_afterSent
  outClosed_recv)

variable {α σ : Type}

/-- Batches of which the error does not get lost while sending (C85). -/
def Keeps (N : Net α σ) (i : Nat) (b : Batch α) : Prop := N.mode i = .cycles ∨ b.length ≤ 1

theorem keeps_hereditary (N : Net α σ) (i : Nat) : Hereditary (Keeps N i : Batch α → Prop) := by
  refine ⟨.inr (by simp), fun b p h => ?_⟩
  rcases h with h | h
  · exact .inl h
  · refine .inr (Nat.le_trans ?_ h)
    exact List.length_eraseIdx_le ..

/-- The stage has an error, of its own or from the next layer. -/
def Told (s : St α σ) (i : Nat) : Prop := s.fails i ≠ [] ∨ ∃ e ∈ s.heard i, e ≠ []

def StageOk (ph : Phase α) (heard : List (List Nat)) (fails : List Nat) : Prop :=
  match ph with
  | .reading => heard = [] ∧ fails = []
  | .processing _ => heard = [] ∧ fails = []
  | .producing _ => heard = [] ∧ fails = []
  | .sending pend _ _ err found => (err = false ∧ found = [] ∧ heard = [] ∧ fails = []) ∨ (err = true ∧ pend = [] ∧ found ≠ [] ∧ heard.length = 1 ∧ found ∈ heard)
  | .breaking f => heard.length ≤ 1 ∧ ((∀ e ∈ heard, e = []) ∧ fails = [] ∨ f ≠ [])
  | .waiting f => heard.length ≤ 1 ∧ ((∀ e ∈ heard, e = []) ∧ fails = [] ∨ f ≠ [])
  | .reporting e => e ≠ [] ∧ heard ≠ []
  | .finished => heard ≠ []

/-- The stages that do not have the error yet. -/
def rem (s : St α σ) (l : Nat) : List Nat :=
  match s.relay l with
  | some (_, r) => r
  | none => []

/-- No error will come to layer `l` any more. -/
def NextDone (N : Net α σ) (s : St α σ) (l : Nat) : Prop := s.relay l = none ∧ ∀ j < N.n, N.layer j = l + 1 → s.phase j = .finished ∧ s.fwd j = none

def Hears (N : Net α σ) (s : St α σ) (i : Nat) : Prop :=
  (i ∉ rem s (N.layer i) ∧ s.heard i = s.log (N.layer i)) ∨ (i ∈ rem s (N.layer i) ∧ s.heard i = (s.log (N.layer i)).dropLast) ∨
  (s.heard i = s.log (N.layer i) ++ [[]] ∧ NextDone N s (N.layer i) ∧ (s.phase i = .finished ∨ ∃ e, s.phase i = .reporting e))

structure FI (N : Net α σ) (s : St α σ) : Prop where
  stage : ∀ i, StageOk (s.phase i) (s.heard i) (s.fails i)
  fwd : ∀ j e, s.fwd j = some e → e ≠ [] ∧ s.phase j = .finished
  relay : ∀ l e r, s.relay l = some (e, r) → r ≠ [] ∧ (∃ pre, s.log l = pre ++ [e]) ∧ r.Nodup ∧ ∀ i ∈ r, i ∈ N.members l
  logne : ∀ l, ∀ e ∈ s.log l, e ≠ []
  hears : ∀ i < N.n, Hears N s i
  lost : ∀ j, 0 < j → j < N.n → s.phase j = .finished → Told s j → s.fwd j ≠ none ∨ s.log (N.layer j - 1) ≠ []
  src : s.phase 0 = .finished → Told s 0 → ∃ r, s.result = some r ∧ r ≠ []
  res : ∀ r, s.result = some r → s.phase 0 = .finished
  ended : ∀ j, 0 < j → j < N.n → ended (s.phase j) = true → inClosed N s j = true ∨ Told s j

theorem fi_init (N : Net α σ) (s0 : Nat → σ) (script : List (Call α)) : FI N (St.init s0 script : St α σ) := by
  refine ⟨fun _ => ⟨rfl, rfl⟩, (by intro j e h; cases h), (by intro l e r h; cases h), (by intro l e h; cases h), fun i hi => .inl ⟨(by intro h; cases h), rfl⟩, ?_, ?_, ?_, ?_⟩
  · intro j _ _ h; cases h
  · intro h; cases h
  · intro r h; cases h
  · intro j _ _ h; cases h

/-- A step of one stage that has not come to its end, without error channels. -/
theorem fi_local {N : Net α σ} {s : St α σ} (h : FI N s) {i : Nat} {ph : Phase α} {fl : List Nat} (st : Nat → σ) (script : List (Call α)) (got : Nat → List α)
    (hok : StageOk ph (s.heard i) fl) (hfl : s.fails i ≠ [] → fl ≠ []) (ho : s.phase i ≠ .finished) (ho' : ∀ e, s.phase i ≠ .reporting e) (hn : ph ≠ .finished)
    (hcl : (s.phase i).outClosed = true → ph.outClosed = true)
    (hend : Fpki.Pipe.ended ph = true → Fpki.Pipe.ended (s.phase i) = true ∨ i = 0 ∨ inClosed N s i = true ∨ fl ≠ [] ∨ ∃ e ∈ s.heard i, e ≠ []) :
    FI N { s with phase := upd s.phase i ph, st := st, script := script, got := got, fails := upd s.fails i fl } := by
  obtain ⟨a1, a2, a3, a4, a5, a6, a7, a8, a9⟩ := h
  have fin : ∀ k, s.phase k = .finished → upd s.phase i ph k = .finished := by
    intro k hk
    rw [upd_ne]
    · exact hk
    · intro e; rw [e] at hk; exact ho hk
  have fin' : ∀ k, upd s.phase i ph k = .finished → k ≠ i ∧ s.phase k = .finished := by
    intro k hk
    by_cases e : k = i
    · subst e; rw [upd_self] at hk; exact absurd hk hn
    · rw [upd_ne _ _ e] at hk; exact ⟨e, hk⟩
  have rep : ∀ k e, s.phase k = .reporting e → upd s.phase i ph k = .reporting e := by
    intro k e hk
    rw [upd_ne]
    · exact hk
    · intro e'; rw [e'] at hk; exact ho' e hk
  have cmono : ∀ j, inClosed N s j = true → inClosed N { s with phase := upd s.phase i ph, st := st, script := script, got := got, fails := upd s.fails i fl } j = true := by
    intro j hj
    rw [inClosed_iff] at hj ⊢
    intro k h1 h2
    show (upd s.phase i ph k).outClosed = true
    rw [upd_apply]
    split
    · rename_i e; subst e; exact hcl (hj k h1 h2)
    · exact hj k h1 h2
  have tmono : ∀ j, Told s j → Told { s with phase := upd s.phase i ph, st := st, script := script, got := got, fails := upd s.fails i fl } j := by
    intro j hj
    rcases hj with hj | hj
    · left
      show upd s.fails i fl j ≠ []
      rw [upd_apply]
      split
      · rename_i e; subst e; exact hfl hj
      · exact hj
    · exact .inr hj
  have tback : ∀ j, j ≠ i → Told { s with phase := upd s.phase i ph, st := st, script := script, got := got, fails := upd s.fails i fl } j → Told s j := by
    intro j hne hj
    rcases hj with hj | hj
    · left
      have hj : upd s.fails i fl j ≠ [] := hj
      rwa [upd_ne _ _ hne] at hj
    · exact .inr hj
  refine ⟨?_, fun j e hj => ⟨(a2 j e hj).1, fin j (a2 j e hj).2⟩, a3, a4, ?_, ?_, ?_, fun r hr => fin 0 (a8 r hr), ?_⟩
  · intro j
    by_cases e : j = i
    · subst e; simp only [upd_self]; exact hok
    · simp only [upd_ne _ _ e]; exact a1 j
  · intro k hk
    rcases a5 k hk with h | h | ⟨h, h', h''⟩
    · exact .inl h
    · exact .inr (.inl h)
    · refine .inr (.inr ⟨h, ⟨h'.1, fun j hj hl => ⟨fin j (h'.2 j hj hl).1, (h'.2 j hj hl).2⟩⟩, ?_⟩)
      rcases h'' with h'' | ⟨e, h''⟩
      · exact .inl (fin k h'')
      · exact .inr ⟨e, rep k e h''⟩
  · intro j h0 hj hf ht
    obtain ⟨e1, e2⟩ := fin' j hf
    exact a6 j h0 hj e2 (tback j e1 ht)
  · intro hf ht
    obtain ⟨e1, e2⟩ := fin' 0 hf
    exact a7 e2 (tback 0 e1 ht)
  · intro j h0 hj he
    have old : Fpki.Pipe.ended (s.phase j) = true → inClosed N { s with phase := upd s.phase i ph, st := st, script := script, got := got, fails := upd s.fails i fl } j = true ∨
        Told { s with phase := upd s.phase i ph, st := st, script := script, got := got, fails := upd s.fails i fl } j := by
      intro he
      rcases a9 j h0 hj he with h | h
      · exact .inl (cmono j h)
      · exact .inr (tmono j h)
    by_cases e : j = i
    · subst e
      simp only [upd_self] at he
      rcases hend he with h | h | h | h | h
      · exact old h
      · omega
      · exact .inl (cmono j h)
      · right; left
        show upd s.fails j fl j ≠ []
        rw [upd_self]; exact h
      · exact .inr (.inr h)
    · simp only [upd_ne _ _ e] at he
      exact old he

/-- The same without a change of `fails`. -/
theorem fi_local' {N : Net α σ} {s : St α σ} (h : FI N s) {i : Nat} {ph : Phase α} (st : Nat → σ) (script : List (Call α)) (got : Nat → List α)
    (hok : StageOk ph (s.heard i) (s.fails i)) (ho : s.phase i ≠ .finished) (ho' : ∀ e, s.phase i ≠ .reporting e) (hn : ph ≠ .finished)
    (hcl : (s.phase i).outClosed = true → ph.outClosed = true)
    (hend : Fpki.Pipe.ended ph = true → Fpki.Pipe.ended (s.phase i) = true ∨ i = 0 ∨ inClosed N s i = true ∨ s.fails i ≠ [] ∨ ∃ e ∈ s.heard i, e ≠ []) :
    FI N { s with phase := upd s.phase i ph, st := st, script := script, got := got } := by
  have := fi_local h st script got hok id ho ho' hn hcl hend
  rw [upd_eta] at this
  exact this

/-- No stage but the source says `NoMoreData` before the end of its input. -/
def NeverStops (N : Net α σ) : Prop := ∀ i s v, ((N.fn i).process s v).2.outcome ≠ .stop

theorem stageOk_call (c : Call α) : StageOk (afterCall c) [] c.failure := by
  unfold afterCall Call.failure
  cases h : c.outcome with
  | fail e => exact ⟨by simp, .inr (by simp)⟩
  | go => exact .inl ⟨rfl, rfl, rfl, rfl⟩
  | stop => exact .inl ⟨rfl, rfl, rfl, rfl⟩

theorem stageOk_end (c : Call α) : StageOk (afterEnd c) [] c.failure := by
  unfold afterEnd Call.failure
  cases h : c.outcome with
  | fail e => exact ⟨by simp, .inr (by simp)⟩
  | go => exact .inl ⟨rfl, rfl, rfl, rfl⟩
  | stop => exact .inl ⟨rfl, rfl, rfl, rfl⟩

theorem afterCall_not (c : Call α) : afterCall c ≠ .finished ∧ (∀ e, afterCall c ≠ .reporting e) ∧ ((afterCall c).outClosed = false) := by
  rcases afterCall_shape c with ⟨e, h⟩ | ⟨a, b, d, h⟩ <;> rw [h] <;> refine ⟨?_, ?_, rfl⟩ <;> intros <;> intro h <;> cases h

theorem afterEnd_not (c : Call α) : afterEnd c ≠ .finished ∧ (∀ e, afterEnd c ≠ .reporting e) ∧ ((afterEnd c).outClosed = false) := by
  rcases afterEnd_shape c with ⟨e, h⟩ | ⟨a, b, d, h⟩ <;> rw [h] <;> refine ⟨?_, ?_, rfl⟩ <;> intros <;> intro h <;> cases h

theorem dropLast_snoc {β : Type} (l : List β) (x : β) : (l ++ [x]).dropLast = l := by simp

/-- A stage that has not yet the error of layer `l`, or cannot come to have it. -/
theorem hears_early {N : Net α σ} {s : St α σ} {i : Nat} (h : Hears N s i) (hh : s.heard i = []) :
    (s.log (N.layer i) = [] ∧ i ∉ rem s (N.layer i)) ∨ i ∈ rem s (N.layer i) := by
  rcases h with h | h | h
  · exact .inl ⟨by rw [← h.2]; exact hh, h.1⟩
  · exact .inr h.1
  · rw [hh] at h
    have := congrArg List.length h.1
    simp at this

theorem rem_some {s : St α σ} {l : Nat} {e r : List Nat} (h : s.relay l = some (e, r)) : rem s l = r := by simp [rem, h]
theorem rem_none {s : St α σ} {l : Nat} (h : s.relay l = none) : rem s l = [] := by simp [rem, h]

/-- nil is only received at the very end: `waiting`. -/
theorem fi_nil {N : Net α σ} {s : St α σ} (hN : N.WF) (h : FI N s) {i p : Nat} {e : List Nat} {ph : Phase α} (hi : i < N.n) (hn : nilReady N s i = true)
    (hr : recv (N.mode i) (s.phase i) e p = some ph) : ∃ f, s.phase i = .waiting f ∧ ph = report (f ++ e) := by
  obtain ⟨n1, n2⟩ := nilReady_out hn
  cases hp : s.phase i with
  | waiting f =>
    rw [hp] at hr
    simp only [recv] at hr
    split at hr <;> cases hr
    exact ⟨f, rfl, rfl⟩
  | _ =>
    exfalso
    have hst := h.stage i
    rw [hp] at hst
    simp only [nilReady, hp, Phase.isWaiting, Bool.or_false, Bool.and_eq_true, bne_iff_ne, ne_eq] at hn
    obtain ⟨j, hj⟩ := List.exists_mem_of_ne_nil _ hn.1.1
    obtain ⟨j1, j2⟩ := mem_members.mp hj
    have j0 : 0 < j := layer_pos hN j1 (by omega)
    -- what the stage has heard
    have hheard : s.heard i = [] := by
      first
      | exact hst.1
      | (simp [recv, hp] at hr; done)
      | (rcases hst with h | h
         · exact h.2.2.1
         · rw [hp, h.2.1] at hr; simp [recv] at hr)
    have hout : (s.phase i).outClosed = false := by
      rw [hp]
      first
      | rfl
      | (simp [recv, hp] at hr; done)
    rcases h.ended j j0 j1 (by rw [(n2 j hj).1]; rfl) with hc | ht
    · have := inClosed_iff.mp hc i hi (by omega)
      rw [hout] at this; cases this
    · rcases h.lost j j0 j1 (n2 j hj).1 ht with hf | hl
      · exact hf (n2 j hj).2
      · have e : N.layer j - 1 = N.layer i := by omega
        rw [e] at hl
        rcases hears_early (h.hears i hi) hheard with h | h
        · exact hl h.1
        · rw [rem_none n1] at h; cases h

theorem mem_erase_self_not {l : List Nat} {a : Nat} (h : l.Nodup) : a ∉ l.erase a := by
  intro hm
  exact absurd rfl ((List.Nodup.mem_erase_iff h).mp hm).1

/-- Only the source produces on its own. -/
def SrcOnly (s : St α σ) : Prop := ∀ i c, s.phase i = .producing c → i = 0

theorem recv_not_producing {m : Mode} {ph ph' : Phase α} {e : List Nat} {p : Nat} (h : recv m ph e p = some ph') : ∀ c, ph' ≠ .producing c := by
  intro c
  rcases recv_shape h with ⟨_, h2, _⟩ | ⟨f, _, h2, _⟩ | ⟨pend', rest', brk', err', found', h1, h2, h3⟩
  · rw [h2]; intro h; cases h
  · rw [h2]; cases f ++ e <;> intro h <;> cases h
  · rw [h3]; intro h; cases h

theorem srcOnly_step {N : Net α σ} {s s' : St α σ} (h : SrcOnly s) (hs : Step N s s') : SrcOnly s' := by
  have h0 := h
  have key : ∀ {i : Nat} {ph : Phase α}, (∀ c, ph = .producing c → i = 0) → ∀ k c, upd s.phase i ph k = .producing c → k = 0 :=
    fun hp => forall_upd (P := fun i (ph : Phase α) => ∀ c, ph = .producing c → i = 0) h hp
  cases hs with
  | pollEnd h hs => exact key (by intro c h; cases h)
  | poll c cs h hs => exact key (fun _ _ => rfl)
  | give i j p pend rest brk err found v h hd hp hi hj hl ha =>
    exact forall_upd (P := fun i (ph : Phase α) => ∀ c, ph = .producing c → i = 0) (key (by intro c h; cases h)) (by intro c h; cases h)
  | closed j h h0 hj hc => exact key (by intro c h; cases h)
  | callSome i v hi h => exact key (by intro c h; rcases afterCall_shape ((N.fn i).process (s.st i) v).2 with ⟨e, h'⟩ | ⟨a, b, d, h'⟩ <;> rw [h'] at h <;> cases h)
  | callSrc hi h => exact key (by intro c h; cases h)
  | callEnd i hi h0 h => exact key (by intro c h; rcases afterEnd_shape ((N.fn i).finish (s.st i)).2 with ⟨e, h'⟩ | ⟨a, b, d, h'⟩ <;> rw [h'] at h <;> cases h)
  | callProd i c hi h => exact key (by intro c' h; rcases afterCall_shape c with ⟨e, h'⟩ | ⟨a, b, d, h'⟩ <;> rw [h'] at h <;> cases h)
  | sent i rest brk err found hi h =>
    refine key ?_
    intro c h
    unfold afterSent at h
    split at h
    · cases h
    · cases rest <;> cases h
  | close i f hi h => exact key (by intro c h; cases h)
  | report j e h hf h0 hj => exact key (by intro c h; cases h)
  | relayIn j e hf hr h0 hj => exact h
  | errTo i p e r ph hin hr hi hv => exact key (fun c h => absurd h (recv_not_producing hv c))
  | errNil i p ph hi hn hv => exact key (fun c h => absurd h (recv_not_producing hv c))
  | waitErr e hres h => exact key (by intro c h; cases h)
  | waitNil hres h => exact h0

theorem fi_step {N : Net α σ} (hN : N.WF) (hS : NeverStops N) {s s' : St α σ} (hk : AllInv (Keeps N) s) (hso : SrcOnly s) (h : FI N s) (hs : Step N s s') : FI N s' := by
  have hh := h
  obtain ⟨a1, a2, a3, a4, a5, a6, a7, a8, a9⟩ := h
  cases hs with
  | pollEnd h hs =>
    have := a1 0; rw [h] at this
    exact fi_local' hh s.st s.script s.got this (by rw [h]; intro h; cases h) (by rw [h]; intro e h; cases h) (by intro h; cases h) (by rw [h]; intro h; cases h) (fun _ => .inr (.inl rfl))
  | poll c cs h hs =>
    have := a1 0; rw [h] at this
    exact fi_local' hh s.st cs s.got this (by rw [h]; intro h; cases h) (by rw [h]; intro e h; cases h) (by intro h; cases h) (by rw [h]; intro h; cases h) (by intro h; cases h)
  | give i j p pend rest brk err found v h hd hp hi hj hl ha =>
    have hsi := a1 i; rw [h] at hsi
    have hne : j ≠ i := by intro e; subst e; omega
    have hu := fi_local' hh (i := i) (ph := .sending (pend.eraseIdx p) rest brk err found) s.st s.script s.got
      (by
        rcases hsi with h | h
        · exact .inl h
        · rw [h.2.1] at hp; cases hp)
      (by rw [h]; intro h; cases h) (by rw [h]; intro e h; cases h) (by intro h; cases h) (by rw [h]; intro h; cases h) (by intro e; left; rw [h]; cases brk <;> exact e)
    have hd' : upd s.phase i (.sending (pend.eraseIdx p) rest brk err found) j = .reading := by rw [upd_ne _ _ hne]; exact hd
    have hsj := a1 j; rw [hd] at hsj
    exact fi_local' hu (i := j) (ph := .processing (some v)) s.st s.script (upd s.got j (s.got j ++ [v])) hsj (by simp only [hd']; intro h; cases h) (by simp only [hd']; intro e h; cases h)
      (by intro h; cases h) (by simp only [hd']; intro h; cases h) (by intro h; cases h)
  | closed j h h0 hj hc =>
    have := a1 j; rw [h] at this
    exact fi_local' hh s.st s.script s.got this (by rw [h]; intro h; cases h) (by rw [h]; intro e h; cases h) (by intro h; cases h) (by rw [h]; intro h; cases h) (fun _ => .inr (.inr (.inl hc)))
  | callSome i v hi h =>
    have := a1 i; rw [h] at this
    obtain ⟨b1, b2⟩ := this
    have hc := afterCall_not ((N.fn i).process (s.st i) v).2
    refine fi_local hh _ s.script s.got ?_ ?_ (by rw [h]; intro h; cases h) (by rw [h]; intro e h; cases h) hc.1 (by rw [h]; intro h; cases h) ?_
    · rw [b1, b2, List.nil_append]; exact stageOk_call _
    · intro h; exact absurd b2 h
    · intro he
      rw [b2, List.nil_append]
      have hst := hS i (s.st i) v
      revert he
      unfold afterCall Call.failure
      cases ho : ((N.fn i).process (s.st i) v).2.outcome with
      | fail e => intro _; exact .inr (.inr (.inr (.inl (by simp))))
      | stop => exact absurd ho hst
      | go => intro h; cases h
  | callSrc hi h =>
    have := a1 0; rw [h] at this
    exact fi_local' hh s.st s.script s.got (.inl ⟨rfl, rfl, this⟩) (by rw [h]; intro h; cases h) (by rw [h]; intro e h; cases h) (by intro h; cases h) (by rw [h]; intro h; cases h)
      (fun _ => .inr (.inl rfl))
  | callEnd i hi h0 h =>
    have := a1 i; rw [h] at this
    obtain ⟨b1, b2⟩ := this
    have hc := afterEnd_not ((N.fn i).finish (s.st i)).2
    refine fi_local hh _ s.script s.got ?_ ?_ (by rw [h]; intro h; cases h) (by rw [h]; intro e h; cases h) hc.1 (by rw [h]; intro h; cases h) (fun _ => .inl (by rw [h]; rfl))
    · rw [b1, b2, List.nil_append]; exact stageOk_end _
    · intro h; exact absurd b2 h
  | callProd i c hi h =>
    have := a1 i; rw [h] at this
    obtain ⟨b1, b2⟩ := this
    have hc := afterCall_not c
    refine fi_local hh s.st s.script s.got ?_ ?_ (by rw [h]; intro h; cases h) (by rw [h]; intro e h; cases h) hc.1 (by rw [h]; intro h; cases h) (fun _ => .inr (.inl (hso i c h)))
    · rw [b1, b2, List.nil_append]; exact stageOk_call _
    · intro h; exact absurd b2 h
  | sent i rest brk err found hi h =>
    have hst := a1 i; rw [h] at hst
    refine fi_local' hh s.st s.script s.got ?_ (by rw [h]; intro h; cases h) (by rw [h]; intro e h; cases h) ?_ (by rw [h]; intro h; cases h) ?_
    · unfold afterSent
      split
      · rcases hst with ⟨_, b2, b3, b4⟩ | ⟨_, _, b3, b4, b5⟩
        · exact ⟨by rw [b3]; simp, .inl ⟨(by rw [b3]; intro e h; cases h), b4⟩⟩
        · exact ⟨by omega, .inr b3⟩
      · rename_i hb
        simp only [Bool.or_eq_true, not_or, Bool.not_eq_true] at hb
        rcases hst with ⟨_, b2, b3, b4⟩ | ⟨b1, _⟩
        · cases rest with
          | nil => exact ⟨b3, b4⟩
          | cons b bs => exact .inl ⟨rfl, b2, b3, b4⟩
        · rw [hb.2] at b1; cases b1
    · unfold afterSent
      split
      · intro h; cases h
      · cases rest <;> intro h <;> cases h
    · rw [h]
      cases brk with
      | true => intro _; left; rfl
      | false =>
        rcases hst with ⟨b1, b2, b3, b4⟩ | ⟨b1, _, b3, b4, b5⟩
        · rw [b1]; cases rest <;> intro h <;> cases h
        · intro _; exact .inr (.inr (.inr (.inr ⟨found, b5, b3⟩)))
  | close i f hi h =>
    have hst := a1 i; rw [h] at hst
    exact fi_local' hh s.st s.script s.got hst (by rw [h]; intro h; cases h) (by rw [h]; intro e h; cases h) (by intro h; cases h) (by intro _; rfl) (fun _ => .inl (by rw [h]; rfl))
  | report j e h hf h0 hj =>
    have hst := a1 j; rw [h] at hst
    have fin : ∀ k, s.phase k = .finished → upd s.phase j .finished k = .finished := by
      intro k hk; rw [upd_apply]; split
      · rfl
      · exact hk
    have cmono : ∀ k, inClosed N s k = true → inClosed N { s with phase := upd s.phase j .finished, fwd := upd s.fwd j (some e) } k = true := by
      intro k hk
      rw [inClosed_iff] at hk ⊢
      intro m h1 h2
      show (upd s.phase j .finished m).outClosed = true
      rw [upd_apply]; split
      · rfl
      · exact hk m h1 h2
    refine ⟨?_, ?_, a3, a4, ?_, ?_, ?_, ?_, ?_⟩
    · intro k
      by_cases e' : k = j
      · subst e'; simp only [upd_self]; exact hst.2
      · simp only [upd_ne _ _ e']; exact a1 k
    · intro k x hx
      by_cases e' : k = j
      · subst e'; simp only [upd_self] at hx ⊢; cases hx; exact ⟨hst.1, trivial⟩
      · simp only [upd_ne _ _ e'] at hx ⊢; exact a2 k x hx
    · intro k hk
      rcases a5 k hk with h1 | h1 | ⟨h1, h2, h3⟩
      · exact .inl h1
      · exact .inr (.inl h1)
      · refine .inr (.inr ⟨h1, ⟨h2.1, ?_⟩, ?_⟩)
        · intro m hm hl
          have := h2.2 m hm hl
          have e' : m ≠ j := by intro e'; rw [e', h] at this; cases this.1
          simp only [upd_ne _ _ e']; exact this
        · by_cases e' : k = j
          · subst e'; left; simp only [upd_self]
          · simp only [upd_ne _ _ e']; exact h3
    · intro k k0 hk hf' ht
      by_cases e' : k = j
      · subst e'; left; simp only [upd_self]; intro h; cases h
      · simp only [upd_ne _ _ e'] at hf' ⊢; exact a6 k k0 hk hf' ht
    · have e' : (0 : Nat) ≠ j := by omega
      simp only [upd_ne _ _ e']; exact a7
    · intro r hr; exact fin 0 (a8 r hr)
    · intro k k0 hk he
      have he' : Fpki.Pipe.ended (s.phase k) = true := by
        by_cases e' : k = j
        · subst e'; rw [h]; rfl
        · simp only [upd_ne _ _ e'] at he; exact he
      rcases a9 k k0 hk he' with h1 | h1
      · exact .inl (cmono k h1)
      · exact .inr h1
  | relayIn j e hf hr h0 hj =>
    have hl0 : N.layer j ≠ 0 := fun x => by have := (hN.zero j hj).mp x; omega
    have hlog : ∀ l, s.log l ≠ [] → upd s.log (N.layer j - 1) (s.log (N.layer j - 1) ++ [e]) l ≠ [] := by
      intro l hl
      rw [upd_apply]; split
      · simp
      · exact hl
    refine ⟨a1, ?_, ?_, ?_, ?_, ?_, a7, a8, a9⟩
    · intro k x hx
      have hx : upd s.fwd j none k = some x := hx
      rw [upd_apply] at hx
      split at hx
      · cases hx
      · exact a2 k x hx
    · intro l x r hx
      have hx : upd s.relay (N.layer j - 1) (some (e, N.members (N.layer j - 1))) l = some (x, r) := hx
      by_cases e' : l = N.layer j - 1
      · subst e'
        rw [upd_self] at hx
        cases hx
        refine ⟨?_, ⟨s.log (N.layer j - 1), by simp only [upd_self]⟩, members_nodup N _, fun _ h => h⟩
        obtain ⟨i, hi, hl⟩ := hN.gap j hj (N.layer j - 1) (by omega)
        exact List.ne_nil_of_mem (mem_members.mpr ⟨hi, hl⟩)
      · rw [upd_ne _ _ e'] at hx
        simp only [upd_ne _ _ e']
        exact a3 l x r hx
    · intro l x hx
      have hx : x ∈ upd s.log (N.layer j - 1) (s.log (N.layer j - 1) ++ [e]) l := hx
      rw [upd_apply] at hx
      split at hx
      · rcases List.mem_append.mp hx with h | h
        · exact a4 _ x h
        · rw [List.mem_singleton] at h; rw [h]; exact (a2 j e hf).1
      · exact a4 l x hx
    · intro i hi
      by_cases e' : N.layer i = N.layer j - 1
      · refine .inr (.inl ⟨?_, ?_⟩)
        · simp only [rem, e', upd_self]; exact mem_members.mpr ⟨hi, e'⟩
        · simp only [e', upd_self, dropLast_snoc]
          rcases a5 i hi with h1 | h1 | h1
          · rw [← e']; exact h1.2
          · rw [rem_none (by rw [e']; exact hr)] at h1; cases h1.1
          · have := (h1.2.1.2 j hj (by omega)).2
            rw [hf] at this; cases this
      · have er : rem { s with fwd := upd s.fwd j none, relay := upd s.relay (N.layer j - 1) (some (e, N.members (N.layer j - 1))), log := upd s.log (N.layer j - 1) (s.log (N.layer j - 1) ++ [e]) }
            (N.layer i) = rem s (N.layer i) := by simp only [rem, upd_ne _ _ e']
        rcases a5 i hi with h1 | h1 | ⟨h1, h2, h3⟩
        · left; rw [er]; simp only [upd_ne _ _ e']; exact h1
        · right; left; rw [er]; simp only [upd_ne _ _ e']; exact h1
        · right; right
          refine ⟨by simp only [upd_ne _ _ e']; exact h1, ⟨by simp only [upd_ne _ _ e']; exact h2.1, ?_⟩, h3⟩
          intro m hm hl
          refine ⟨(h2.2 m hm hl).1, ?_⟩
          show upd s.fwd j none m = none
          rw [upd_apply]; split
          · rfl
          · exact (h2.2 m hm hl).2
    · intro k k0 hk hf' ht
      rcases a6 k k0 hk hf' ht with h1 | h1
      · by_cases e' : k = j
        · subst e'; right; simp only [upd_self]; simp
        · left; simp only [upd_ne _ _ e']; exact h1
      · exact .inr (hlog _ h1)
  | errTo i p e r ph hin hr hi hv =>
    obtain ⟨r1, ⟨pre, r2⟩, r3, r4⟩ := a3 _ e r hr
    have he : e ≠ [] := a4 (N.layer i) e (by rw [r2]; simp)
    have hst := a1 i
    have hnf : s.phase i ≠ .finished := by intro h; rw [h] at hv; cases hv
    have hnr : ∀ x, s.phase i ≠ .reporting x := by intro x h; rw [h] at hv; cases hv
    have hph : ph ≠ .finished := by
      rcases recv_shape hv with ⟨_, h2, _⟩ | ⟨f, _, h2, _⟩ | ⟨pend', rest', brk', err', found', h1, h2, h3⟩
      · rw [h2]; intro h; cases h
      · rw [h2, report_ne (by simp [he])]; intro h; cases h
      · rw [h3]; intro h; cases h
    have hok : StageOk ph (s.heard i ++ [e]) (s.fails i) := by
      rcases recv_shape hv with ⟨h1, h2, _⟩ | ⟨f, h1, h2, _⟩ | ⟨pend', rest', brk', err', found', h1, h2, h3⟩
      · rw [h1] at hst; rw [h2]
        exact ⟨by rw [hst.1]; simp, .inr he⟩
      · rw [h2, report_ne (by simp [he])]
        exact ⟨by simp [he], by simp⟩
      · rw [h1] at hst
        rcases hst with hst | hst
        · have hkp := hk.phase i; rw [h1] at hkp
          rw [h3, hst.2.2.1, dropAt_keeps h2 hkp.1]
          exact .inr ⟨rfl, rfl, he, rfl, by simp⟩
        · rw [hst.2.1] at h2; simp at h2
    have fin : ∀ k, s.phase k = .finished → upd s.phase i ph k = .finished := by
      intro k hk
      rw [upd_ne]
      · exact hk
      · intro e'; rw [e'] at hk; exact hnf hk
    have hgiven : ∀ x r', given r e i = some (x, r') → x = e ∧ r' = r.erase i ∧ r' ≠ [] := by
      intro x r' h
      unfold given at h
      split at h
      · cases h
      · rename_i hne; cases h; exact ⟨rfl, rfl, hne⟩
    have hrem : rem { s with phase := upd s.phase i ph, relay := upd s.relay (N.layer i) (given r e i), heard := upd s.heard i (s.heard i ++ [e]) } (N.layer i) = r.erase i := by
      simp only [rem, upd_self, given]
      split
      · rename_i h
        split at h
        · cases h
        · cases h; rfl
      · rename_i h
        split at h
        · rename_i h'; exact h'.symm
        · cases h
    have htold : ∀ k, k ≠ i → Told { s with phase := upd s.phase i ph, relay := upd s.relay (N.layer i) (given r e i), heard := upd s.heard i (s.heard i ++ [e]) } k → Told s k := by
      intro k hk ht
      rcases ht with ht | ht
      · exact .inl ht
      · right
        simp only [upd_ne _ _ hk] at ht; exact ht
    have htold' : ∀ k, Told s k → Told { s with phase := upd s.phase i ph, relay := upd s.relay (N.layer i) (given r e i), heard := upd s.heard i (s.heard i ++ [e]) } k := by
      intro k ht
      rcases ht with ht | ⟨x, hx, hx'⟩
      · exact .inl ht
      · right
        refine ⟨x, ?_, hx'⟩
        show x ∈ upd s.heard i (s.heard i ++ [e]) k
        rw [upd_apply]; split
        · rename_i e'; rw [e'] at hx; exact List.mem_append_left _ hx
        · exact hx
    refine ⟨?_, fun j x hx => ⟨(a2 j x hx).1, fin j (a2 j x hx).2⟩, ?_, a4, ?_, ?_, ?_, fun r' hr' => fin 0 (a8 r' hr'), ?_⟩
    · intro k
      by_cases e' : k = i
      · subst e'; simp only [upd_self]; exact hok
      · simp only [upd_ne _ _ e']; exact a1 k
    · intro l x r' hx
      have hx : upd s.relay (N.layer i) (given r e i) l = some (x, r') := hx
      by_cases e' : l = N.layer i
      · subst e'
        rw [upd_self] at hx
        obtain ⟨g1, g2, g3⟩ := hgiven x r' hx
        subst g1; subst g2
        exact ⟨g3, ⟨pre, r2⟩, r3.erase _, fun k hk => r4 k (List.mem_of_mem_erase hk)⟩
      · rw [upd_ne _ _ e'] at hx; exact a3 l x r' hx
    · intro k hk
      by_cases e' : k = i
      · subst e'
        left
        rw [hrem]
        refine ⟨mem_erase_self_not r3, ?_⟩
        simp only [upd_self]
        rcases a5 k hk with h1 | h1 | h1
        · rw [rem_some hr] at h1; exact absurd hi h1.1
        · rw [h1.2, r2]; simp
        · rw [h1.2.1.1] at hr; cases hr
      · by_cases el : N.layer k = N.layer i
        · rcases a5 k hk with h1 | h1 | h1
          · left
            rw [el] at h1 ⊢
            rw [hrem, rem_some hr] at *
            refine ⟨fun h => h1.1 (List.mem_of_mem_erase h), ?_⟩
            simp only [upd_ne _ _ e']; exact h1.2
          · right; left
            rw [el] at h1 ⊢
            rw [hrem, rem_some hr] at *
            refine ⟨(List.mem_erase_of_ne e').mpr h1.1, ?_⟩
            simp only [upd_ne _ _ e']; exact h1.2
          · have := h1.2.1.1
            rw [el, hr] at this; cases this
        · have er : rem { s with phase := upd s.phase i ph, relay := upd s.relay (N.layer i) (given r e i), heard := upd s.heard i (s.heard i ++ [e]) } (N.layer k) = rem s (N.layer k) := by
            simp only [rem, upd_ne _ _ el]
          rcases a5 k hk with h1 | h1 | ⟨h1, h2, h3⟩
          · left; rw [er]; simp only [upd_ne _ _ e']; exact h1
          · right; left; rw [er]; simp only [upd_ne _ _ e']; exact h1
          · right; right
            refine ⟨by simp only [upd_ne _ _ e']; exact h1, ⟨by simp only [upd_ne _ _ el]; exact h2.1, fun m hm hl => ⟨fin m (h2.2 m hm hl).1, (h2.2 m hm hl).2⟩⟩, ?_⟩
            simp only [upd_ne _ _ e']; exact h3
    · intro k k0 hk hf' ht
      by_cases e' : k = i
      · subst e'; simp only [upd_self] at hf'; exact absurd hf' hph
      · simp only [upd_ne _ _ e'] at hf'; exact a6 k k0 hk hf' (htold k e' ht)
    · intro hf' ht
      by_cases e' : 0 = i
      · subst e'; simp only [upd_self] at hf'; exact absurd hf' hph
      · simp only [upd_ne _ _ e'] at hf'; exact a7 hf' (htold 0 e' ht)
    · intro k k0 hk hen
      by_cases e' : k = i
      · subst e'
        right; right
        exact ⟨e, by simp only [upd_self]; simp, he⟩
      · simp only [upd_ne _ _ e'] at hen
        rcases a9 k k0 hk hen with h1 | h1
        · left
          rw [inClosed_iff] at h1 ⊢
          intro m m1 m2
          show (upd s.phase i ph m).outClosed = true
          rw [upd_apply]; split
          · rename_i e''; subst e''; exact outClosed_recv hv (h1 m m1 m2)
          · exact h1 m m1 m2
        · exact .inr (htold' k h1)
  | errNil i p ph hi hn hv =>
    obtain ⟨f, hw, hph⟩ := fi_nil hN hh hi hn hv
    obtain ⟨n1, n2⟩ := nilReady_out hn
    rw [List.append_nil] at hph
    have hst := a1 i; rw [hw] at hst
    have fin : ∀ k, s.phase k = .finished → upd s.phase i ph k = .finished := by
      intro k hk
      rw [upd_ne]
      · exact hk
      · intro e'; rw [e', hw] at hk; cases hk
    have hend : ph = .finished ∨ ∃ e, ph = .reporting e := by
      rw [hph]; cases f with
      | nil => exact .inl rfl
      | cons a l => exact .inr ⟨_, rfl⟩
    have hquiet : ph = .finished → ¬ Told { s with phase := upd s.phase i ph, heard := upd s.heard i (s.heard i ++ [[]]) } i := by
      intro hf ht
      have hf0 : f = [] := by
        cases f with
        | nil => rfl
        | cons a l => rw [hph] at hf; cases hf
      rcases hst.2 with ⟨b1, b2⟩ | b
      · rcases ht with ht | ⟨x, hx, hx'⟩
        · exact ht b2
        · simp only [upd_self] at hx
          rcases List.mem_append.mp hx with h | h
          · exact hx' (b1 x h)
          · rw [List.mem_singleton] at h; exact hx' h
      · exact b hf0
    have htold : ∀ k, k ≠ i → Told { s with phase := upd s.phase i ph, heard := upd s.heard i (s.heard i ++ [[]]) } k → Told s k := by
      intro k hk ht
      rcases ht with ht | ht
      · exact .inl ht
      · right
        simp only [upd_ne _ _ hk] at ht; exact ht
    have htold' : ∀ k, Told s k → Told { s with phase := upd s.phase i ph, heard := upd s.heard i (s.heard i ++ [[]]) } k := by
      intro k ht
      rcases ht with ht | ⟨x, hx, hx'⟩
      · exact .inl ht
      · right
        refine ⟨x, ?_, hx'⟩
        show x ∈ upd s.heard i (s.heard i ++ [[]]) k
        rw [upd_apply]; split
        · rename_i e'; rw [e'] at hx; exact List.mem_append_left _ hx
        · exact hx
    refine ⟨?_, fun j x hx => ⟨(a2 j x hx).1, fin j (a2 j x hx).2⟩, a3, a4, ?_, ?_, ?_, fun r' hr' => fin 0 (a8 r' hr'), ?_⟩
    · intro k
      by_cases e' : k = i
      · subst e'
        simp only [upd_self]
        rw [hph]
        cases f with
        | nil => show s.heard k ++ [[]] ≠ []; simp
        | cons a l => exact ⟨by simp, by simp⟩
      · simp only [upd_ne _ _ e']; exact a1 k
    · intro k hk
      by_cases e' : k = i
      · subst e'
        right; right
        refine ⟨?_, ⟨n1, fun m hm hl => ⟨fin m (n2 m (mem_members.mpr ⟨hm, hl⟩)).1, (n2 m (mem_members.mpr ⟨hm, hl⟩)).2⟩⟩, by simp only [upd_self]; exact hend⟩
        simp only [upd_self]
        rcases a5 k hk with h1 | h1 | h1
        · rw [h1.2]
        · rw [rem_none n1] at h1; cases h1.1
        · rw [hw] at h1; rcases h1.2.2 with h | ⟨x, h⟩ <;> cases h
      · rcases a5 k hk with h1 | h1 | ⟨h1, h2, h3⟩
        · left; simp only [upd_ne _ _ e']; exact h1
        · right; left; simp only [upd_ne _ _ e']; exact h1
        · right; right
          exact ⟨by simp only [upd_ne _ _ e']; exact h1, ⟨h2.1, fun m hm hl => ⟨fin m (h2.2 m hm hl).1, (h2.2 m hm hl).2⟩⟩, by simp only [upd_ne _ _ e']; exact h3⟩
    · intro k k0 hk hf' ht
      by_cases e' : k = i
      · subst e'; simp only [upd_self] at hf'; exact absurd ht (hquiet hf')
      · simp only [upd_ne _ _ e'] at hf'; exact a6 k k0 hk hf' (htold k e' ht)
    · intro hf' ht
      by_cases e' : 0 = i
      · subst e'; simp only [upd_self] at hf'; exact absurd ht (hquiet hf')
      · simp only [upd_ne _ _ e'] at hf'; exact a7 hf' (htold 0 e' ht)
    · intro k k0 hk hen
      have hen' : Fpki.Pipe.ended (s.phase k) = true := by
        by_cases e' : k = i
        · subst e'; rw [hw]; rfl
        · simp only [upd_ne _ _ e'] at hen; exact hen
      rcases a9 k k0 hk hen' with h1 | h1
      · left
        rw [inClosed_iff] at h1 ⊢
        intro m m1 m2
        show (upd s.phase i ph m).outClosed = true
        rw [upd_apply]; split
        · rename_i e''; subst e''; exact outClosed_recv hv (h1 m m1 m2)
        · exact h1 m m1 m2
      · exact .inr (htold' k h1)
  | waitErr e hres h =>
    have hst := a1 0; rw [h] at hst
    have fin : ∀ k, s.phase k = .finished → upd s.phase 0 .finished k = .finished := by
      intro k hk; rw [upd_apply]; split
      · rfl
      · exact hk
    refine ⟨?_, fun j x hx => ⟨(a2 j x hx).1, fin j (a2 j x hx).2⟩, a3, a4, ?_, ?_, fun _ _ => ⟨e, rfl, hst.1⟩, fun _ _ => (show upd s.phase 0 .finished 0 = .finished from upd_self _ _ _), ?_⟩
    · intro k
      by_cases e' : k = 0
      · subst e'; simp only [upd_self]; exact hst.2
      · simp only [upd_ne _ _ e']; exact a1 k
    · intro k hk
      rcases a5 k hk with h1 | h1 | ⟨h1, h2, h3⟩
      · exact .inl h1
      · exact .inr (.inl h1)
      · refine .inr (.inr ⟨h1, ⟨h2.1, fun m hm hl => ⟨fin m (h2.2 m hm hl).1, (h2.2 m hm hl).2⟩⟩, ?_⟩)
        by_cases e' : k = 0
        · subst e'; left; simp only [upd_self]
        · simp only [upd_ne _ _ e']; exact h3
    · intro k k0 hk hf' ht
      have e' : k ≠ 0 := by omega
      simp only [upd_ne _ _ e'] at hf'
      exact a6 k k0 hk hf' ht
    · intro k k0 hk hen
      have e' : k ≠ 0 := by omega
      simp only [upd_ne _ _ e'] at hen
      rcases a9 k k0 hk hen with h1 | h1
      · left
        rw [inClosed_iff] at h1 ⊢
        intro m m1 m2
        show (upd s.phase 0 .finished m).outClosed = true
        rw [upd_apply]; split
        · rfl
        · exact h1 m m1 m2
      · exact .inr h1
  | waitNil hres h =>
    refine ⟨a1, a2, a3, a4, a5, a6, ?_, fun _ _ => h, a9⟩
    intro hf ht
    obtain ⟨r, hr, _⟩ := a7 hf ht
    rw [hres] at hr; cases hr

/-! ## Progress -/

theorem canStep_report {N : Net α σ} {s : St α σ} {j : Nat} {e : List Nat} (h0 : 0 < j) (hj : j < N.n) (h : s.phase j = .reporting e) (hf : s.fwd j = none) : CanStep N s :=
  ⟨.report j, by simp [exec, h, hf, h0, hj]⟩

theorem canStep_relayIn {N : Net α σ} {s : St α σ} {j : Nat} (h0 : 0 < j) (hj : j < N.n) (hf : s.fwd j ≠ none) (hr : s.relay (N.layer j - 1) = none) : CanStep N s := by
  cases hfj : s.fwd j with
  | none => exact absurd hfj hf
  | some e => exact ⟨.relayIn j, by simp [exec, hfj, hr, h0, hj]⟩

theorem canStep_errTo {N : Net α σ} {s : St α σ} {i : Nat} {e r : List Nat} (hin : i < N.n) (hr : s.relay (N.layer i) = some (e, r)) (hi : i ∈ r)
    (h : s.phase i = .reading ∨ (∃ f, s.phase i = .waiting f) ∨ ∃ x ps rest brk err found, s.phase i = .sending (x :: ps) rest brk err found) : CanStep N s := by
  refine ⟨.errTo i 0, ?_⟩
  rcases h with h | ⟨f, h⟩ | ⟨x, ps, rest, brk, err, found, h⟩
  · simp [exec, hr, hin, hi, h, recv]
  · simp [exec, hr, hin, hi, h, recv]
  · simp [exec, hr, hin, hi, h, recv, allowed_zero]

/-- The phases of a state in which nothing can happen. -/
theorem stuck_phase {N : Net α σ} {s : St α σ} (hst : ¬ CanStep N s) {i : Nat} (hi : i < N.n) :
    s.phase i = .reading ∨ (∃ x ps rest brk err found, s.phase i = .sending (x :: ps) rest brk err found) ∨ (s.phase i).outClosed = true := by
  cases hp : s.phase i with
  | reading => exact .inl rfl
  | processing v => exact absurd (canStep_active hi (.inl ⟨v, hp⟩)) hst
  | producing c => exact absurd (canStep_active hi (.inr (.inl ⟨c, hp⟩))) hst
  | breaking f => exact absurd (canStep_active hi (.inr (.inr (.inl ⟨f, hp⟩)))) hst
  | sending pend rest brk err found =>
    cases pend with
    | nil => exact absurd (canStep_active hi (.inr (.inr (.inr ⟨rest, brk, err, found, hp⟩)))) hst
    | cons x ps => exact .inr (.inl ⟨x, ps, rest, brk, err, found, rfl⟩)
  | waiting f => exact .inr (.inr rfl)
  | reporting f => exact .inr (.inr rfl)
  | finished => exact .inr (.inr rfl)

theorem outClosed_cases {ph : Phase α} (h : ph.outClosed = true) : (∃ f, ph = .waiting f) ∨ (∃ e, ph = .reporting e) ∨ ph = .finished := by
  cases ph with
  | waiting f => exact .inl ⟨f, rfl⟩
  | reporting e => exact .inr (.inl ⟨e, rfl⟩)
  | finished => exact .inr (.inr rfl)
  | _ => cases h

/-- Where nothing can happen, a stage can only wait for one that waits too, or is not at its end. -/
theorem stuck_waiting {N : Net α σ} (hN : N.WF) {s : St α σ} (h : FI N s) (hst : ¬ CanStep N s) {w : Nat} {f : List Nat} (hw : w < N.n) (hp : s.phase w = .waiting f)
    (hnext : ∀ j < N.n, N.layer j = N.layer w + 1 → (∃ e, s.phase j = .reporting e) ∨ s.phase j = .finished) : False := by
  cases hr : s.relay (N.layer w) with
  | none =>
    have hf : ∀ j < N.n, N.layer j = N.layer w + 1 → s.fwd j = none := by
      intro j hj hl
      cases hfj : s.fwd j with
      | none => rfl
      | some e =>
        exact absurd (canStep_relayIn (layer_pos hN hj (by omega)) hj (by rw [hfj]; intro h; cases h) (by rw [hl]; exact hr)) hst
    refine hst (canStep_nil hw hp hr fun j hj hl => ⟨?_, hf j hj hl⟩)
    rcases hnext j hj hl with ⟨e, he⟩ | he
    · exact absurd (canStep_report (layer_pos hN hj (by omega)) hj he (hf j hj hl)) hst
    · exact he
  | some x =>
    obtain ⟨e, r⟩ := x
    obtain ⟨r1, ⟨pre, r2⟩, r3, r4⟩ := h.relay _ e r hr
    have hwr : w ∉ r := fun hm => hst (canStep_errTo hw hr hm (.inr (.inl ⟨f, hp⟩)))
    obtain ⟨i, hi⟩ := List.exists_mem_of_ne_nil _ r1
    obtain ⟨i1, i2⟩ := mem_members.mp (r4 i hi)
    have hri : s.relay (N.layer i) = some (e, r) := by rw [i2]; exact hr
    have hend : (s.phase i).outClosed = true ∧ s.heard i ≠ [] := by
      rcases stuck_phase hst i1 with h1 | h1 | h1
      · exact absurd (canStep_errTo i1 hri hi (.inl h1)) hst
      · exact absurd (canStep_errTo i1 hri hi (.inr (.inr h1))) hst
      · refine ⟨h1, ?_⟩
        have hs := h.stage i
        rcases outClosed_cases h1 with ⟨f', h2⟩ | ⟨e', h2⟩ | h2
        · exact absurd (canStep_errTo i1 hri hi (.inr (.inl ⟨f', h2⟩))) hst
        · rw [h2] at hs; exact hs.2
        · rw [h2] at hs; exact hs
    have hpre : pre ≠ [] := by
      rcases h.hears i i1 with h1 | h1 | h1
      · rw [rem_some hri] at h1; exact absurd hi h1.1
      · have := h1.2
        rw [i2, r2, dropLast_snoc] at this
        rw [← this]; exact hend.2
      · have := h1.2.1.1; rw [hri] at this; cases this
    have hwh : s.heard w = pre ++ [e] := by
      rcases h.hears w hw with h1 | h1 | h1
      · rw [h1.2, r2]
      · rw [rem_some hr] at h1; exact absurd h1.1 hwr
      · have := h1.2.1.1; rw [hr] at this; cases this
    have hs := h.stage w
    rw [hp, hwh] at hs
    have := hs.1
    have hl : pre.length ≠ 0 := fun e => hpre (List.eq_nil_of_length_eq_zero e)
    simp only [List.length_append, List.length_cons, List.length_nil] at this
    omega

/-- If all stages from number `m` on are at their end, none of them waits. -/
theorem stuck_tail {N : Net α σ} (hN : N.WF) {s : St α σ} (h : FI N s) (hst : ¬ CanStep N s) {m : Nat} (hcl : ∀ j < N.n, m ≤ N.layer j → (s.phase j).outClosed = true) :
    ∀ j < N.n, m ≤ N.layer j → ∀ f, s.phase j ≠ .waiting f := by
  rcases greatest_or (P := fun j => m ≤ N.layer j → ∀ f, s.phase j ≠ .waiting f) N.n with hall | ⟨w, hw, hnw, hgt⟩
  · exact hall
  · exfalso
    simp only [Classical.not_forall, Classical.not_not] at hnw
    obtain ⟨hmw, f, hf⟩ := hnw
    refine stuck_waiting hN h hst hw hf fun j hj hl => ?_
    have hwj : w < j := hN.mono w j hw hj (by omega)
    rcases outClosed_cases (hcl j hj (by omega)) with ⟨f', h1⟩ | h1 | h1
    · exact absurd h1 (hgt j hwj hj (by omega) f')
    · exact .inl h1
    · exact .inr h1

theorem fi_progress {N : Net α σ} (hN : N.WF) {s : St α σ} (h : FI N s) (ho : ∀ i, PhaseAll (Own N i) (s.phase i)) (hres : s.result = none) : CanStep N s := by
  apply Classical.byContradiction
  intro hst
  -- if all stages of a layer are at their end, so are those of later layers, if none of these is sending
  have down : ∀ m, (∀ j < N.n, N.layer j = m → (s.phase j).outClosed = true) → (∀ j < N.n, m < N.layer j → ∀ x ps rest brk err found, s.phase j ≠ .sending (x :: ps) rest brk err found) →
      ∀ j < N.n, m ≤ N.layer j → (s.phase j).outClosed = true := by
    intro m hm hns j hj hmj
    have key : ∀ d, ∀ j < N.n, N.layer j = m + d → (s.phase j).outClosed = true := by
      intro d
      induction d with
      | zero => exact hm
      | succ d ih =>
        intro j hj hl
        rcases stuck_phase hst hj with h1 | ⟨x, ps, rest, brk, err, found, h1⟩ | h1
        · exact absurd (canStep_closed (layer_pos hN hj (by omega)) hj h1 (inClosed_iff.mpr fun k hk hkl => ih k hk (by omega))) hst
        · exact absurd h1 (hns j hj (by omega) x ps rest brk err found)
        · exact h1
    exact key (N.layer j - m) j hj (by omega)
  rcases greatest_or (P := fun j => ∀ x ps rest brk err found, s.phase j ≠ .sending (x :: ps) rest brk err found) N.n with hns | ⟨i, hi, hni, hgt⟩
  · -- nobody sends
    have h0 : (s.phase 0).outClosed = true := by
      rcases stuck_phase hst hN.pos with h1 | ⟨x, ps, rest, brk, err, found, h1⟩ | h1
      · exact absurd (canStep_poll h1) hst
      · exact absurd h1 (hns 0 hN.pos x ps rest brk err found)
      · exact h1
    have hall := down 0 (fun j hj hl => by rw [(hN.zero j hj).mp hl]; exact h0) (fun j hj _ => hns j hj)
    have hnw := stuck_tail hN h hst hall 0 hN.pos (Nat.zero_le _)
    rcases outClosed_cases h0 with ⟨f, h1⟩ | ⟨e, h1⟩ | h1
    · exact hnw f h1
    · exact hst ⟨.wait, by simp [exec, hres, h1]⟩
    · exact hst ⟨.wait, by simp [exec, hres, h1]⟩
  · -- the last one that sends
    simp only [Classical.not_forall, Classical.not_not] at hni
    obtain ⟨x, ps, rest, brk, err, found, hp⟩ := hni
    obtain ⟨k, v⟩ := x
    have hown := ho i
    rw [hp] at hown
    obtain ⟨hk, hm⟩ := hown.1 (k, v) (List.mem_cons_self ..)
    simp only at hk
    subst hk
    obtain ⟨j0, hj0⟩ := List.exists_mem_of_ne_nil _ hm
    obtain ⟨hj0n, hj0l⟩ := mem_members.mp hj0
    have hgt' : ∀ j < N.n, N.layer i < N.layer j → ∀ x ps rest brk err found, s.phase j ≠ .sending (x :: ps) rest brk err found :=
      fun j hj hl => hgt j (hN.mono i j hi hj hl) hj
    have hnext : ∀ j < N.n, N.layer j = N.layer i + 1 → (s.phase j).outClosed = true := by
      intro j hj hl
      rcases stuck_phase hst hj with h1 | ⟨x, ps', rest', brk', err', found', h1⟩ | h1
      · exact absurd (canStep_give hi hj hl hp h1) hst
      · exact absurd h1 (hgt' j hj (by omega) x ps' rest' brk' err' found')
      · exact h1
    have hall := down (N.layer i + 1) hnext (fun j hj hl => hgt' j hj (by omega))
    have hnw := stuck_tail hN h hst hall j0 hj0n (by omega)
    -- the sender has heard nothing, so nothing was sent to its layer
    have hheard : s.heard i = [] := by
      have hs := h.stage i
      rw [hp] at hs
      rcases hs with hs | hs
      · exact hs.2.2.1
      · cases hs.2.1
    have hlog : s.log (N.layer i) = [] ∧ s.relay (N.layer i) = none := by
      rcases hears_early (h.hears i hi) hheard with h1 | h1
      · refine ⟨h1.1, ?_⟩
        cases hr : s.relay (N.layer i) with
        | none => rfl
        | some x =>
          obtain ⟨e, r⟩ := x
          obtain ⟨_, ⟨pre, r2⟩, _⟩ := h.relay _ e r hr
          rw [h1.1] at r2
          have := congrArg List.length r2
          simp at this
      · cases hr : s.relay (N.layer i) with
        | none => rw [rem_none hr] at h1; cases h1
        | some x =>
          obtain ⟨e, r⟩ := x
          rw [rem_some hr] at h1
          exact absurd (canStep_errTo hi hr h1 (.inr (.inr ⟨_, _, _, _, _, _, hp⟩))) hst
    have hj00 : 0 < j0 := layer_pos hN hj0n (by omega)
    have hl : N.layer j0 - 1 = N.layer i := by omega
    have hfwd : s.fwd j0 = none := by
      cases hf : s.fwd j0 with
      | none => rfl
      | some e => exact absurd (canStep_relayIn hj00 hj0n (by rw [hf]; intro h; cases h) (by rw [hl]; exact hlog.2)) hst
    rcases outClosed_cases (hnext j0 hj0n hj0l) with ⟨f, h1⟩ | ⟨e, h1⟩ | h1
    · exact hnw f h1
    · exact hst (canStep_report hj00 hj0n h1 hfwd)
    · rcases h.ended j0 hj00 hj0n (by rw [h1]; rfl) with h2 | h2
      · have := inClosed_iff.mp h2 i hi hl.symm
        rw [hp] at this; cases this
      · rcases h.lost j0 hj00 hj0n h1 h2 with h3 | h3
        · exact h3 hfwd
        · rw [hl] at h3; exact h3 hlog.1

/-! ## nil means success -/

theorem fi_quiet {N : Net α σ} (hN : N.WF) {s : St α σ} (h : FI N s) (hr : s.result = some []) : ∀ i < N.n, s.phase i = .finished ∧ ¬ Told s i := by
  have key : ∀ d, ∀ i < N.n, N.layer i = d → s.phase i = .finished ∧ ¬ Told s i := by
    intro d
    induction d with
    | zero =>
      intro i hi hl
      have e := (hN.zero i hi).mp hl
      subst e
      have hf := h.res [] hr
      refine ⟨hf, fun ht => ?_⟩
      obtain ⟨r, h1, h2⟩ := h.src hf ht
      rw [hr] at h1; cases h1; exact h2 rfl
    | succ d ih =>
      intro j hj hl
      obtain ⟨i, hi, hil⟩ := hN.gap j hj d (by omega)
      obtain ⟨p1, p2⟩ := ih i hi hil
      have hs := h.stage i
      rw [p1] at hs
      have hs : s.heard i ≠ [] := hs
      have allnil : ∀ e ∈ s.heard i, e = [] := by
        intro e he
        by_cases hne : e = []
        · exact hne
        · exact absurd (.inr ⟨e, he, hne⟩) p2
      obtain ⟨x, hx⟩ := List.exists_mem_of_ne_nil _ hs
      have hdone : s.heard i = s.log d ++ [[]] ∧ NextDone N s d := by
        rcases h.hears i hi with h1 | h1 | h1
        · rw [h1.2] at hx
          exact absurd (allnil x (by rw [h1.2]; exact hx)) (h.logne _ x hx)
        · rw [h1.2] at hx
          exact absurd (allnil x (by rw [h1.2]; exact hx)) (h.logne _ x (List.dropLast_subset _ hx))
        · rw [hil] at h1; exact ⟨h1.1, h1.2.1⟩
      have hlog : s.log d = [] := by
        cases hlg : s.log d with
        | nil => rfl
        | cons a l =>
          exact absurd (allnil a (by rw [hdone.1, hlg]; simp)) (h.logne d a (by rw [hlg]; simp))
      obtain ⟨q1, q2⟩ := hdone.2.2 j hj hl
      refine ⟨q1, fun ht => ?_⟩
      rcases h.lost j (layer_pos hN hj (by omega)) hj q1 ht with h3 | h3
      · exact h3 q2
      · rw [hl, Nat.add_sub_cancel] at h3; exact h3 hlog
  exact fun i hi => key _ i hi rfl

/-! ## The errors that are returned are errors of the functions -/

structure Known (N : Net α σ) (s : St α σ) : Prop where
  phase : ∀ i, ∀ e ∈ carry (s.phase i), ∃ j < N.n, e ∈ s.fails j
  fwd : ∀ k l, s.fwd k = some l → ∀ e ∈ l, ∃ j < N.n, e ∈ s.fails j
  relay : ∀ k l r, s.relay k = some (l, r) → ∀ e ∈ l, ∃ j < N.n, e ∈ s.fails j
  result : ∀ r, s.result = some r → ∀ e ∈ r, ∃ j < N.n, e ∈ s.fails j

theorem known_init (N : Net α σ) (s0 : Nat → σ) (script : List (Call α)) : Known N (St.init s0 script : St α σ) :=
  ⟨(by intro i e h; cases h), (by intro k l h; cases h), (by intro k l r h; cases h), (by intro r h; cases h)⟩

theorem known_upd {N : Net α σ} {s : St α σ} (h : Known N s) {i : Nat} {ph : Phase α} (hc : ∀ x ∈ carry ph, ∃ j < N.n, x ∈ s.fails j) :
    ∀ j, ∀ e ∈ carry (upd s.phase i ph j), ∃ j < N.n, e ∈ s.fails j :=
  forall_upd (P := fun _ ph => ∀ e ∈ carry ph, ∃ j < N.n, e ∈ s.fails j) h.phase hc

theorem known_call {N : Net α σ} {s : St α σ} (h : Known N s) {i : Nat} (hi : i < N.n) {c : Call α} {ph : Phase α} (hph : carry ph = c.failure) (st : Nat → σ) :
    Known N { s with phase := upd s.phase i ph, st := st, fails := upd s.fails i (s.fails i ++ c.failure) } := by
  have mono : ∀ x, (∃ j < N.n, x ∈ s.fails j) → ∃ j < N.n, x ∈ upd s.fails i (s.fails i ++ c.failure) j := by
    rintro x ⟨j, hj, hx⟩
    refine ⟨j, hj, ?_⟩
    rw [upd_apply]
    split
    · rename_i e; rw [e] at hx; exact List.mem_append_left _ hx
    · exact hx
  obtain ⟨a1, a2, a3, a4⟩ := h
  refine ⟨?_, fun k l hk e he => mono e (a2 k l hk e he), fun k l r hk e he => mono e (a3 k l r hk e he), fun r hr e he => mono e (a4 r hr e he)⟩
  intro j e he
  by_cases e' : j = i
  · subst e'
    simp only [upd_self, hph] at he
    exact ⟨j, hi, by simp only [upd_self]; exact List.mem_append_right _ he⟩
  · simp only [upd_ne _ _ e'] at he
    exact mono e (a1 j e he)

theorem known_step {N : Net α σ} {s s' : St α σ} (h : Known N s) (hs : Step N s s') : Known N s' := by
  have hh := h
  obtain ⟨a1, a2, a3, a4⟩ := h
  cases hs with
  | pollEnd h hs => exact ⟨known_upd hh (by intro x h; cases h), a2, a3, a4⟩
  | poll c cs h hs => exact ⟨known_upd hh (by intro x h; cases h), a2, a3, a4⟩
  | give i j p pend rest brk err found v h hd hp hi hj hl ha =>
    have := a1 i; rw [h] at this
    refine ⟨?_, a2, a3, a4⟩
    exact forall_upd (P := fun _ ph => ∀ e ∈ carry ph, ∃ j < N.n, e ∈ s.fails j) (known_upd hh this) (by intro x h; cases h)
  | closed j h h0 hj hc => exact ⟨known_upd hh (by intro x h; cases h), a2, a3, a4⟩
  | callSome i v hi h => exact known_call hh hi (carry_afterCall _) _
  | callSrc hi h => exact ⟨known_upd hh (by intro x h; cases h), a2, a3, a4⟩
  | callEnd i hi h0 h => exact known_call hh hi (carry_afterEnd _) _
  | callProd i c hi h => exact known_call hh hi (carry_afterCall _) s.st
  | sent i rest brk err found hi h =>
    have := a1 i; rw [h] at this
    exact ⟨known_upd hh (fun x hx => this x (carry_afterSent _ _ _ _ x hx)), a2, a3, a4⟩
  | close i f hi h =>
    have := a1 i; rw [h] at this
    exact ⟨known_upd hh this, a2, a3, a4⟩
  | report j e h hf h0 hj =>
    have := a1 j; rw [h] at this
    refine ⟨known_upd hh (by intro x h; cases h), ?_, a3, a4⟩
    intro k l hl
    have hl : upd s.fwd j (some e) k = some l := hl
    rw [upd_apply] at hl
    split at hl
    · cases hl; exact this
    · exact a2 k l hl
  | relayIn j e hf hr h0 hj =>
    refine ⟨a1, ?_, ?_, a4⟩
    · intro k l hl
      have hl : upd s.fwd j none k = some l := hl
      rw [upd_apply] at hl
      split at hl
      · cases hl
      · exact a2 k l hl
    · intro k l r hl
      have hl : upd s.relay (N.layer j - 1) (some (e, N.members (N.layer j - 1))) k = some (l, r) := hl
      rw [upd_apply] at hl
      split at hl
      · simp only [Option.some.injEq, Prod.mk.injEq] at hl; rw [← hl.1]; exact a2 j e hf
      · exact a3 k l r hl
  | errTo i p e r ph hin hr hi hv =>
    refine ⟨known_upd hh ?_, a2, ?_, a4⟩
    · intro x hx
      rcases carry_recv hv x hx with h | h
      · exact a1 _ x h
      · exact a3 _ e r hr x h
    · intro k l r' hl
      have hl : upd s.relay (N.layer i) (given r e i) k = some (l, r') := hl
      rw [upd_apply] at hl
      split at hl
      · unfold given at hl
        split at hl
        · cases hl
        · cases hl; exact a3 _ _ _ hr
      · exact a3 k l r' hl
  | errNil i p ph hi hn hv =>
    refine ⟨known_upd hh ?_, a2, a3, a4⟩
    intro x hx
    rcases carry_recv hv x hx with h | h
    · exact a1 _ x h
    · cases h
  | waitErr e hres h =>
    have := a1 0; rw [h] at this
    exact ⟨known_upd hh (by intro x h; cases h), a2, a3, (by intro r hr; cases hr; exact this)⟩
  | waitNil hres h => exact ⟨a1, a2, a3, (by intro r hr; cases hr; intro e h; cases h)⟩

end Fpki.Layers
