import Verif.Lemmas.PipeFail
/-! # Pipelines without fan-in in which functions can fail: no deadlock. Which errors can be returned. -/
namespace Fpki.Pipe
open Fpki.Stage (Mode)

variable {α σ : Type}

theorem outClosed_recv {m : Mode} {ph ph' : Phase α} {e : List Nat} {p : Nat} (h : recv m ph e p = some ph') (hc : ph.outClosed = true) : ph'.outClosed = true := by
  rcases recv_shape h with ⟨h1, _⟩ | ⟨f, h1, h2, _⟩ | ⟨pend', rest', brk', err', found', h1, h2, h3⟩
  · rw [h1] at hc; cases hc
  · rw [h2]; cases f ++ e <;> rfl
  · rw [h1] at hc; cases hc

theorem closed_upd {s : St α σ} {i : Nat} {ph : Phase α} (h : (s.phase i).outClosed = true → ph.outClosed = true) :
    ∀ j, (s.phase j).outClosed = true → (upd s.phase i ph j).outClosed = true := by
  intro j hj
  rw [upd_apply]
  split
  · rename_i e; rw [e] at hj; exact h hj
  · exact hj

/-- Channels stay closed. -/
theorem closed_step {N : Net α σ} {s s' : St α σ} (hs : Step N s s') : ∀ j, (s.phase j).outClosed = true → (s'.phase j).outClosed = true := by
  cases hs with
  | pollEnd h hs => exact closed_upd (by rw [h]; intro h; cases h)
  | poll c cs h hs => exact closed_upd (by rw [h]; intro h; cases h)
  | push k p pend rest brk err found v h hsl hp hk ha hm => exact closed_upd (by rw [h]; intro h; cases h)
  | direct k p pend rest brk err found v h hd hp hk ha hm =>
    intro j hj
    have hj2 := closed_upd (ph := .sending (pend.eraseIdx p) rest brk err found) (i := N.src k) (by rw [h]; intro h; cases h) j hj
    simp only
    rw [upd_apply]
    split
    · rename_i e; rw [e, hd] at hj; cases hj
    · exact hj2
  | pull k v h hsl hk => exact closed_upd (by rw [h]; intro h; cases h)
  | closed j h h0 hj hc => exact closed_upd (by rw [h]; intro h; cases h)
  | callSome i v hi h => exact closed_upd (by rw [h]; intro h; cases h)
  | callSrc hi h => exact closed_upd (by rw [h]; intro h; cases h)
  | callEnd i hi h0 h => exact closed_upd (by rw [h]; intro h; cases h)
  | callProd i c hi h => exact closed_upd (by rw [h]; intro h; cases h)
  | sent i rest brk err found hi h => exact closed_upd (by rw [h]; intro h; cases h)
  | close i f hi h => exact closed_upd (fun _ => rfl)
  | forward k e h hh hk hm => exact closed_upd (fun _ => rfl)
  | errHeld k p e ph hk hm hh hr => exact closed_upd (outClosed_recv hr)
  | errDirect k p e ph hk hm h hr =>
    intro j hj
    have hj2 := closed_upd (outClosed_recv hr) j hj
    simp only
    rw [upd_apply]
    split
    · rfl
    · exact hj2
  | errNil i p ph hi hn hr => exact closed_upd (outClosed_recv hr)
  | waitErr e hres h => exact closed_upd (fun _ => rfl)
  | waitNil hres h => exact fun _ h => h

/-! ## A stage with one next stage has not passed its waiting before that one has finished -/

def past : Phase α → Bool
  | .reporting _ => true
  | .finished => true
  | _ => false

def Single (N : Net α σ) (phase : Nat → Phase α) : Prop := ∀ k < N.m, N.multiOut (N.src k) = false → past (phase (N.src k)) = true → phase (N.dst k) = .finished

theorem single_upd {N : Net α σ} {phase : Nat → Phase α} (h : Single N phase) {i : Nat} {ph : Phase α} (hf : phase i = .finished → ph = .finished)
    (hp : past ph = true → past (phase i) = true ∨ ∀ k < N.m, N.src k = i → N.multiOut i = false → phase (N.dst k) = .finished) : Single N (upd phase i ph) := by
  intro k hk hm hpast
  have fn : ∀ j, phase j = .finished → upd phase i ph j = .finished := by
    intro j hj; rw [upd_apply]; split
    · rename_i e; rw [e] at hj; exact hf hj
    · exact hj
  refine fn _ ?_
  by_cases e : N.src k = i
  · rw [e, upd_self] at hpast
    rcases hp hpast with h1 | h1
    · exact h k hk hm (by rw [e]; exact h1)
    · exact h1 k hk e (by rw [← e]; exact hm)
  · rw [upd_ne _ _ e] at hpast
    exact h k hk hm hpast

theorem past_afterCall (c : Call α) : past (afterCall c) = false := by
  rcases afterCall_shape c with ⟨e, h⟩ | ⟨a, b, d, h⟩ <;> rw [h] <;> rfl
theorem past_afterEnd (c : Call α) : past (afterEnd c) = false := by
  rcases afterEnd_shape c with ⟨e, h⟩ | ⟨a, b, d, h⟩ <;> rw [h] <;> rfl
theorem past_afterSent (rest : List (Batch α)) (brk err : Bool) (found : List Nat) : past (afterSent rest brk err found) = false := by
  unfold afterSent
  split
  · rfl
  · cases rest <;> rfl

theorem length_two {l : List Nat} {a b : Nat} (ha : a ∈ l) (hb : b ∈ l) (h : a ≠ b) : 2 ≤ l.length := by
  cases l with
  | nil => cases ha
  | cons x l =>
    cases l with
    | cons y l => simp
    | nil => simp at ha hb; rw [ha, hb] at h; exact absurd rfl h

theorem out_unique {N : Net α σ} {k k' : Nat} (hk : k < N.m) (hk' : k' < N.m) (hm : N.multiOut (N.src k) = false) (h : N.src k' = N.src k) : k' = k := by
  by_cases e : k' = k
  · exact e
  · have := length_two (mem_outs.mpr ⟨hk', h⟩) (mem_outs.mpr ⟨hk, rfl⟩) e
    simp only [Net.multiOut, decide_eq_false_iff_not] at hm
    exact absurd this hm

theorem in_unique {N : Net α σ} {j k k' : Nat} (hk : k ∈ N.ins j) (hk' : k' ∈ N.ins j) (hm : N.multiIn j = false) : k' = k := by
  by_cases e : k' = k
  · exact e
  · have := length_two hk' hk e
    simp only [Net.multiIn, decide_eq_false_iff_not] at hm
    exact absurd this hm

theorem single_step {N : Net α σ} (hN : N.WF) {s s' : St α σ} (h0 : Single N s.phase) (hs : Step N s s') : Single N s'.phase := by
  have nofin : ∀ {i : Nat} {ph ph' : Phase α}, s.phase i = ph → past ph = false → s.phase i = .finished → ph' = .finished := by
    intro i ph ph' h1 h2 h3; rw [h1] at h3; rw [h3] at h2; cases h2
  cases hs with
  | pollEnd h hs => exact single_upd h0 (nofin h rfl) (by intro h; cases h)
  | poll c cs h hs => exact single_upd h0 (nofin h rfl) (by intro h; cases h)
  | push k p pend rest brk err found v h hsl hp hk ha hm => exact single_upd h0 (nofin h rfl) (by intro h; cases h)
  | direct k p pend rest brk err found v h hd hp hk ha hm =>
    refine single_upd (single_upd h0 (nofin h rfl) (by intro h; cases h)) ?_ (by intro h; cases h)
    have hne : N.dst k ≠ N.src k := by have := (hN.fwd k hk).1; omega
    rw [upd_ne _ _ hne]
    exact nofin hd rfl
  | pull k v h hsl hk => exact single_upd h0 (nofin h rfl) (by intro h; cases h)
  | closed j h h0' hj hc => exact single_upd h0 (nofin h rfl) (by intro h; cases h)
  | callSome i v hi h => exact single_upd h0 (nofin h rfl) (by rw [past_afterCall]; intro h; cases h)
  | callSrc hi h => exact single_upd h0 (nofin h rfl) (by intro h; cases h)
  | callEnd i hi h0' h => exact single_upd h0 (nofin h rfl) (by rw [past_afterEnd]; intro h; cases h)
  | callProd i c hi h => exact single_upd h0 (nofin h rfl) (by rw [past_afterCall]; intro h; cases h)
  | sent i rest brk err found hi h => exact single_upd h0 (nofin h rfl) (by rw [past_afterSent]; intro h; cases h)
  | close i f hi h => exact single_upd h0 (nofin h rfl) (by intro h; cases h)
  | forward k e h hh hk hm => exact single_upd h0 (fun _ => rfl) (fun _ => .inl (by rw [h]; rfl))
  | errHeld k p e ph hk hm hh hr =>
    refine single_upd h0 (by intro hf; rw [hf] at hr; cases hr) (fun _ => .inr ?_)
    intro _ _ _ hx; rw [hm] at hx; cases hx
  | errDirect k p e ph hk hm h hr =>
    have hne : N.dst k ≠ N.src k := by have := (hN.fwd k hk).1; omega
    have hsf : s.phase (N.src k) ≠ .finished := by intro hf; rw [hf] at hr; cases hr
    have h1 : Single N (upd s.phase (N.dst k) .finished) := single_upd h0 (fun _ => rfl) (fun _ => .inl (by rw [h]; rfl))
    have h2 : Single N (upd (upd s.phase (N.dst k) .finished) (N.src k) ph) := by
      refine single_upd h1 ?_ ?_
      · rw [upd_ne _ _ (fun e => hne e.symm)]; intro hf; exact absurd hf hsf
      · intro _
        refine .inr ?_
        intro k' hk' hs' _
        rw [out_unique hk hk' hm hs', upd_self]
    have he : upd (upd s.phase (N.dst k) .finished) (N.src k) ph = upd (upd s.phase (N.src k) ph) (N.dst k) .finished := by
      funext j
      simp only [upd_apply]
      split
      · rename_i e; subst e; rw [if_neg (fun e => hne e.symm)]
      · rfl
    rw [he] at h2
    exact h2
  | errNil i p ph hi hn hr =>
    refine single_upd h0 (by intro hf; rw [hf] at hr; cases hr) (fun _ => .inr ?_)
    intro k hk hs' _
    exact (nilReady_out hn k (mem_outs.mpr ⟨hk, hs'⟩)).1
  | waitErr e hres h => exact single_upd h0 (fun _ => rfl) (fun _ => .inl (by rw [h]; rfl))
  | waitNil hres h => exact h0

/-! ## Without fan-in, and where nobody stops early, a stage ends quietly only after the one before it -/

def quietEnd : Phase α → Bool
  | .processing none => true
  | .producing _ => true
  | .sending _ _ true _ _ => true
  | .breaking [] => true
  | .waiting [] => true
  | _ => false

structure Tree (N : Net α σ) (G : Nat → Prop) : Prop where
  one : ∀ j, N.multiIn j = false
  multi : ∀ i, N.multiOut i = true → G i
  below : ∀ k < N.m, G (N.src k) → G (N.dst k)
  goes : ∀ k < N.m, G (N.src k) → ∀ s v, ((N.fn (N.dst k)).process s v).2.outcome ≠ .stop

structure Quiet (N : Net α σ) (G : Nat → Prop) (s : St α σ) (t : Nat → Prop) : Prop where
  ends : ∀ k < N.m, G (N.src k) → (quietEnd (s.phase (N.dst k)) = true ∨ (s.phase (N.dst k) = .finished ∧ ¬ t (N.dst k))) → (s.phase (N.src k)).outClosed = true
  err : ∀ i, G i → ∀ pend rest brk found, s.phase i = .sending pend rest brk true found → found ≠ []
  slot : ∀ k, s.slot k = none

theorem quiet_init (N : Net α σ) (G : Nat → Prop) (s0 : Nat → σ) (script : List (Call α)) : Quiet N G (St.init s0 script : St α σ) (fun _ => False) := by
  refine ⟨?_, ?_, fun _ => rfl⟩
  · intro k _ _ h; rcases h with h | ⟨h, _⟩ <;> cases h
  · intro i _ pend rest brk found h; cases h

theorem nil_waiting {N : Net α σ} (hN : N.WF) {G : Nat → Prop} (hT : Tree N G) {s : St α σ} {t : Nat → Prop} (h : Told N G s t) (q : Quiet N G s t) {i p : Nat} {ph : Phase α} (g : G i)
    (hn : nilReady N s i = true) (hr : recv (N.mode i) (s.phase i) [] p = some ph) : ∃ f, s.phase i = .waiting f ∧ ph = report f := by
  rcases recv_shape hr with ⟨h1, h2, _⟩ | ⟨f, h1, h2, _⟩ | ⟨pend', rest', brk', err', found', h1, h2, h3⟩
  case inr.inl => exact ⟨f, h1, by rw [h2, List.append_nil]⟩
  all_goals
    exfalso
    have ho : N.outs i ≠ [] := by simpa [nilReady, h1, Phase.isWaiting] using (Bool.and_eq_true_iff.mp hn).1
    obtain ⟨k, hk⟩ := List.exists_mem_of_ne_nil _ ho
    obtain ⟨hkm, hks⟩ := mem_outs.mp hk
    obtain ⟨hf, hh⟩ := nilReady_out hn k hk
    have hcl : (s.phase i).outClosed = false := by rw [h1]; rfl
    by_cases ht : t (N.dst k)
    · rcases h.up _ ht with hx | ⟨k', hk', hx⟩
      · have := (hN.fwd k hkm).1; omega
      · have e := in_unique (mem_ins.mpr ⟨hkm, rfl⟩) hk' (hT.one _)
        subst e
        rw [hks] at hx
        rcases hx with hx | hx | hx | hx
        · exact hx g
        · exact hx hh
        · have := h.fin _ hx; rw [h1] at this; cases this
        · first
          | (rw [h1] at hx; exact hx rfl)
          | (have hg := h.good i g _ _ _ _ _ h1
             rw [h1] at hx
             have := hg.1 (hg.2 hx)
             rw [this] at h2; simp at h2)
    · have := q.ends k hkm (by rw [hks]; exact g) (.inr ⟨hf, ht⟩)
      rw [hks, hcl] at this
      cases this

theorem quietEnd_recv {m : Mode} {ph ph' : Phase α} {e : List Nat} {p : Nat} (h : recv m ph e p = some ph') (he : e ≠ []) (hq : quietEnd ph' = true) : quietEnd ph = true := by
  rcases recv_shape h with ⟨h1, h2, _⟩ | ⟨f, h1, h2, _⟩ | ⟨pend', rest', brk', err', found', h1, h2, h3⟩
  · rw [h2] at hq; cases e with
    | nil => exact absurd rfl he
    | cons a l => cases hq
  · rw [h2, report_ne (fun hx => he (List.append_eq_nil_iff.mp hx).2)] at hq; cases hq
  · rw [h3] at hq; rw [h1]; cases brk' <;> exact hq

theorem quiet_upd {s : St α σ} {i : Nat} {ph : Phase α} {j : Nat} {R : Nat → Prop} (h : quietEnd ph = true → quietEnd (s.phase i) = true ∨ R i) (hj : quietEnd (upd s.phase i ph j) = true) :
    quietEnd (s.phase j) = true ∨ R j := by
  rw [upd_apply] at hj
  split at hj
  · rename_i e; rw [e]; exact h hj
  · exact .inl hj

theorem quiet_phase {N : Net α σ} (hN : N.WF) {G : Nat → Prop} (hT : Tree N G) {s s' : St α σ} {t : Nat → Prop} (h : Told N G s t) (q : Quiet N G s t) (hs : Step N s s') {j : Nat}
    (hj : quietEnd (s'.phase j) = true) : quietEnd (s.phase j) = true ∨ ∀ k ∈ N.ins j, G (N.src k) → (s.phase (N.src k)).outClosed = true := by
  have ins0 : ∀ k ∈ N.ins 0, G (N.src k) → (s.phase (N.src k)).outClosed = true := by
    intro k hk
    obtain ⟨h1, h2⟩ := mem_ins.mp hk
    have := (hN.fwd k h1).1
    omega
  have up := fun (i : Nat) (ph : Phase α) => quiet_upd (s := s) (i := i) (ph := ph) (j := j) (R := fun j => ∀ k ∈ N.ins j, G (N.src k) → (s.phase (N.src k)).outClosed = true)
  cases hs with
  | pollEnd h hs => exact up 0 _ (fun _ => .inr ins0) hj
  | poll c cs h hs => exact up 0 _ (fun _ => .inr ins0) hj
  | push k p pend rest brk err found v h hsl hp hk ha hm => exact up _ _ (by intro hx; left; rw [h]; cases brk <;> exact hx) hj
  | direct k p pend rest brk err found v h hd hp hk ha hm =>
    simp only at hj
    rw [upd_apply] at hj
    split at hj
    · cases hj
    · exact up _ _ (by intro hx; left; rw [h]; cases brk <;> exact hx) hj
  | pull k v h hsl hk => exact up _ _ (by intro h; cases h) hj
  | closed j' h h0' hj' hc =>
    refine up _ _ (fun _ => .inr ?_) hj
    intro k hk _
    simp only [inClosed, List.all_eq_true, Bool.and_eq_true] at hc
    exact (hc k hk).1
  | callSome i v hi h =>
    refine up _ _ (fun hx => .inr ?_) hj
    intro k hk g
    obtain ⟨h1, h2⟩ := mem_ins.mp hk
    exfalso
    have hns := hT.goes k h1 g (s.st i) v
    rw [h2] at hns
    revert hx
    unfold afterCall
    split
    · simp [quietEnd]
    · rename_i hst; exact absurd hst hns
    · simp [quietEnd]
  | callSrc hi h => exact up 0 _ (fun _ => .inr ins0) hj
  | callEnd i hi h0' h => exact up _ _ (fun _ => .inl (by rw [h]; rfl)) hj
  | callProd i c hi h => exact up _ _ (fun _ => .inl (by rw [h]; rfl)) hj
  | sent i rest brk err found hi h =>
    refine up _ _ (fun hx => ?_) hj
    cases brk with
    | true => left; rw [h]; rfl
    | false =>
      right
      intro k hk g
      exfalso
      obtain ⟨h1, h2⟩ := mem_ins.mp hk
      have gi : G i := by have := hT.below k h1 g; rw [h2] at this; exact this
      cases err with
      | true =>
        have := q.err i gi _ _ _ _ h
        simp only [afterSent, Bool.or_true, if_true] at hx
        cases found with
        | nil => exact this rfl
        | cons a l => cases hx
      | false => cases rest <;> cases hx
  | close i f hi h => exact up _ _ (by intro hx; left; rw [h]; cases f <;> exact hx) hj
  | forward k e h hh hk hm => exact up _ _ (by intro h; cases h) hj
  | errHeld k p e ph hk hm hh hr => exact up _ _ (fun hx => .inl (quietEnd_recv hr (h.held k e hh).1 hx)) hj
  | errDirect k p e ph hk hm h1 hr =>
    simp only at hj
    rw [upd_apply] at hj
    split at hj
    · cases hj
    · exact up _ _ (fun hx => .inl (quietEnd_recv hr (h.rep _ e h1) hx)) hj
  | errNil i p ph hi hn hr =>
    refine up _ _ (fun hx => .inr ?_) hj
    intro k hk g
    obtain ⟨h1, h2⟩ := mem_ins.mp hk
    have gi : G i := by have := hT.below k h1 g; rw [h2] at this; exact this
    obtain ⟨f, h3, h4⟩ := nil_waiting hN hT h q gi hn hr
    rw [h4] at hx
    cases f <;> cases hx
  | waitErr e hres h => exact up _ _ (by intro h; cases h) hj
  | waitNil hres h => exact .inl hj

theorem quiet_err {N : Net α σ} (hN : N.WF) {G : Nat → Prop} (hT : Tree N G) {s s' : St α σ} {t : Nat → Prop} (h : Told N G s t) (q : Quiet N G s t) (hs : Step N s s') :
    ∀ i, G i → ∀ pend rest brk found, s'.phase i = .sending pend rest brk true found → found ≠ [] := by
  have up : ∀ {i : Nat} {ph : Phase α}, (∀ pend rest brk found, G i → ph = .sending pend rest brk true found → found ≠ []) → ∀ j, G j → ∀ pend rest brk found,
      upd s.phase i ph j = .sending pend rest brk true found → found ≠ [] := by
    intro i ph hph j g pend rest brk found hj
    rw [upd_apply] at hj
    split at hj
    · rename_i e; subst e; exact hph _ _ _ _ g hj
    · exact q.err j g _ _ _ _ hj
  have hafter : ∀ c : Call α, ∀ pend rest brk found, afterCall c ≠ .sending pend rest brk true found := by
    intro c pend rest brk found hx; rcases afterCall_shape c with ⟨e, h⟩ | ⟨a, b, d, h⟩ <;> rw [h] at hx <;> cases hx
  have hafter' : ∀ c : Call α, ∀ pend rest brk found, afterEnd c ≠ .sending pend rest brk true found := by
    intro c pend rest brk found hx; rcases afterEnd_shape c with ⟨e, h⟩ | ⟨a, b, d, h⟩ <;> rw [h] at hx <;> cases hx
  have hrecv : ∀ {i p : Nat} {e : List Nat} {ph : Phase α}, recv (N.mode i) (s.phase i) e p = some ph → e ≠ [] → ∀ pend rest brk found, G i → ph = .sending pend rest brk true found → found ≠ [] := by
    intro i p e ph hr he pend rest brk found _ hx
    rcases recv_shape hr with ⟨_, h2, _⟩ | ⟨f, h1, h2, _⟩ | ⟨pend', rest', brk', err', found', h1, h2, h3⟩
    · rw [h2] at hx; cases hx
    · rw [h2] at hx; cases hfe : f ++ e <;> rw [hfe] at hx <;> cases hx
    · rw [h3] at hx; cases hx; exact he
  cases hs with
  | pollEnd h hs => exact up (by intro _ _ _ _ _ h; cases h)
  | poll c cs h hs => exact up (by intro _ _ _ _ _ h; cases h)
  | push k p pend rest brk err found v h hsl hp hk ha hm => exact up (by intro _ _ _ _ g hx; cases hx; exact q.err _ g _ _ _ _ h)
  | direct k p pend rest brk err found v h hd hp hk ha hm =>
    intro j g _ _ _ _ hj
    simp only at hj
    rw [upd_apply] at hj
    split at hj
    · cases hj
    · exact up (by intro _ _ _ _ g hx; cases hx; exact q.err _ g _ _ _ _ h) j g _ _ _ _ hj
  | pull k v h hsl hk => exact up (by intro _ _ _ _ _ h; cases h)
  | closed j h h0' hj hc => exact up (by intro _ _ _ _ _ h; cases h)
  | callSome i v hi h => exact up (fun _ _ _ _ _ hx => absurd hx (hafter _ _ _ _ _))
  | callSrc hi h => exact up (by intro _ _ _ _ _ h; cases h)
  | callEnd i hi h0' h => exact up (fun _ _ _ _ _ hx => absurd hx (hafter' _ _ _ _ _))
  | callProd i c hi h => exact up (fun _ _ _ _ _ hx => absurd hx (hafter _ _ _ _ _))
  | sent i rest brk err found hi h =>
    refine up ?_
    intro _ _ _ _ _ hx
    revert hx
    unfold afterSent
    split
    · intro h; cases h
    · cases rest <;> intro h <;> cases h
  | close i f hi h => exact up (by intro _ _ _ _ _ h; cases h)
  | forward k e h hh hk hm => exact up (by intro _ _ _ _ _ h; cases h)
  | errHeld k p e ph hk hm hh hr => exact up (hrecv hr (h.held k e hh).1)
  | errDirect k p e ph hk hm h1 hr =>
    intro j g _ _ _ _ hj
    simp only at hj
    rw [upd_apply] at hj
    split at hj
    · cases hj
    · exact up (hrecv hr (h.rep _ e h1)) j g _ _ _ _ hj
  | errNil i p ph hi hn hr =>
    refine up ?_
    intro pend rest brk found g hx
    obtain ⟨f, h3, h4⟩ := nil_waiting hN hT h q g hn hr
    rw [h4] at hx
    cases f <;> cases hx
  | waitErr e hres h => exact up (by intro _ _ _ _ _ h; cases h)
  | waitNil hres h => exact q.err

theorem quiet_step {N : Net α σ} (hN : N.WF) {G : Nat → Prop} (hT : Tree N G) {s s' : St α σ} {t t' : Nat → Prop} (h : Told N G s t) (q : Quiet N G s t) (hs : Step N s s')
    (ht : ∀ i, t i → t' i) (hf : ∀ i, s'.phase i = .finished → s.phase i = .finished ∨ t' i ∨ s.phase i = .waiting []) : Quiet N G s' t' := by
  refine ⟨?_, quiet_err hN hT h q hs, ?_⟩
  · intro k hk g hq
    refine closed_step hs _ ?_
    rcases hq with hq | ⟨hq, hnt⟩
    · rcases quiet_phase hN hT h q hs hq with hx | hx
      · exact q.ends k hk g (.inl hx)
      · exact hx k (mem_ins.mpr ⟨hk, rfl⟩) g
    · rcases hf _ hq with hx | hx | hx
      · exact q.ends k hk g (.inr ⟨hx, fun h => hnt (ht _ h)⟩)
      · exact absurd hx hnt
      · exact q.ends k hk g (.inl (by rw [hx]; rfl))
  · cases hs with
    | push k p pend rest brk err found v h hsl hp hk ha hm => rw [hT.one] at hm; cases hm
    | pull k v h hsl hk => rw [q.slot k] at hsl; cases hsl
    | _ => exact q.slot

/-! ## No deadlock -/

theorem tree_progress {N : Net α σ} (hN : N.WF) {G : Nat → Prop} (hT : Tree N G) {s : St α σ} {t : Nat → Prop} (h : Told N G s t) (q : Quiet N G s t) (hsg : Single N s.phase)
    (ho : ∀ i, PhaseAll (Own N i) (s.phase i)) :
    ∀ d i, N.n - i = d → i < N.n → s.phase i ≠ .finished → (s.phase i = .reading → ∀ k ∈ N.ins i, (s.phase (N.src k)).outClosed = true) → CanStep N s := by
  intro d
  induction d using Nat.strongRecOn with
  | _ d ih =>
    intro i hd hi hnf hrd
    cases hp : s.phase i with
    | finished => exact absurd hp hnf
    | processing v => exact canStep_active hi (.inl ⟨v, hp⟩)
    | producing c => exact canStep_active hi (.inr (.inl ⟨c, hp⟩))
    | breaking f => exact canStep_active hi (.inr (.inr (.inl ⟨f, hp⟩)))
    | reading =>
      by_cases h0 : i = 0
      · subst h0
        refine ⟨.poll, ?_⟩
        cases hs : s.script <;> simp [exec, hp, hs]
      · refine ⟨.closed i, ?_⟩
        have hic : inClosed N s i = true := by
          simp only [inClosed, List.all_eq_true, Bool.and_eq_true]
          intro k hk
          exact ⟨hrd hp k hk, by rw [q.slot k]; rfl⟩
        simp [exec, hp, hi, hic, Nat.pos_of_ne_zero h0]
    | sending pend rest brk err found =>
      cases pend with
      | nil => exact canStep_active hi (.inr (.inr (.inr ⟨rest, brk, err, found, hp⟩)))
      | cons x ps =>
        obtain ⟨k, v⟩ := x
        have hown := ho i
        rw [hp] at hown
        obtain ⟨hk, hsrc⟩ := hown.1 (k, v) (List.mem_cons_self ..)
        simp only at hk hsrc
        have hf := hN.fwd k hk
        by_cases hcr : s.phase (N.dst k) = .reading
        · exact canStep_direct hk (by rw [hsrc]; exact hp) (hT.one _) hcr
        · by_cases hcf : s.phase (N.dst k) = .finished
          · cases hmo : N.multiOut i with
            | false =>
              refine ⟨.errNil i 0, ?_⟩
              have hnr : nilReady N s i = true := by
                simp only [nilReady, Bool.and_eq_true, List.all_eq_true]
                refine ⟨?_, ?_⟩
                · have : N.outs i ≠ [] := List.ne_nil_of_mem (mem_outs.mpr ⟨hk, hsrc⟩)
                  simp [this]
                · intro k' hk'
                  obtain ⟨k1, k2⟩ := mem_outs.mp hk'
                  have e := out_unique hk k1 (by rw [hsrc]; exact hmo) (by rw [k2, hsrc])
                  subst e
                  rw [hcf]
                  refine ⟨rfl, ?_⟩
                  cases hh : s.held k' with
                  | none => rfl
                  | some e => have := (h.held k' e hh).2.1; rw [hsrc, hmo] at this; cases this
              simp [exec, hi, hnr, recv, hp, allowed_zero]
            | true =>
              have g := hT.multi i hmo
              by_cases ht : t (N.dst k)
              · rcases h.up _ ht with hx | ⟨k', hk', hx⟩
                · omega
                · have e := in_unique (mem_ins.mpr ⟨hk, rfl⟩) hk' (hT.one _)
                  subst e
                  rw [hsrc] at hx
                  rcases hx with hx | hx | hx | hx
                  · exact absurd g hx
                  · cases hh : s.held k' with
                    | none => exact absurd hh hx
                    | some e => exact ⟨.errFrom k' 0, by simp [exec, hk, hsrc, hmo, hh, recv, hp, allowed_zero]⟩
                  · exact absurd (h.fin _ hx) hnf
                  · have hg := h.good i g _ _ _ _ _ hp
                    rw [hp] at hx
                    have := hg.1 (hg.2 hx)
                    cases this
              · have := q.ends k hk (by rw [hsrc]; exact g) (.inr ⟨hcf, ht⟩)
                rw [hsrc, hp] at this
                cases this
          · exact ih (N.n - N.dst k) (by omega) (N.dst k) rfl hf.2 hcf (fun h => absurd h hcr)
    | waiting f =>
      by_cases hall : ∃ k ∈ N.outs i, s.phase (N.dst k) ≠ .finished
      · obtain ⟨k, hk, hnk⟩ := hall
        obtain ⟨k1, k2⟩ := mem_outs.mp hk
        have hf := hN.fwd k k1
        refine ih (N.n - N.dst k) (by omega) (N.dst k) rfl hf.2 hnk ?_
        intro _ k' hk'
        have e := in_unique (mem_ins.mpr ⟨k1, rfl⟩) hk' (hT.one _)
        subst e
        rw [k2, hp]; rfl
      · have hfin : ∀ k ∈ N.outs i, s.phase (N.dst k) = .finished := by
          intro k hk
          by_cases hx : s.phase (N.dst k) = .finished
          · exact hx
          · exact absurd ⟨k, hk, hx⟩ hall
        by_cases hh : ∃ k ∈ N.outs i, s.held k ≠ none
        · obtain ⟨k, hk, hnk⟩ := hh
          obtain ⟨k1, k2⟩ := mem_outs.mp hk
          cases hh : s.held k with
          | none => exact absurd hh hnk
          | some e =>
            have hmo := (h.held k e hh).2.1
            rw [k2] at hmo
            exact ⟨.errFrom k 0, by simp [exec, k1, hmo, hh, recv, k2, hp]⟩
        · refine ⟨.errNil i 0, ?_⟩
          have hnr : nilReady N s i = true := by
            simp only [nilReady, hp, Phase.isWaiting, Bool.or_true, Bool.true_and, List.all_eq_true, Bool.and_eq_true]
            intro k hk
            rw [hfin k hk]
            refine ⟨rfl, ?_⟩
            cases hx : s.held k with
            | none => rfl
            | some e => exact absurd ⟨k, hk, by rw [hx]; intro h; cases h⟩ hh
          simp [exec, hi, hnr, recv, hp]
    | reporting e =>
      by_cases h0 : i = 0
      · subst h0
        cases hres : s.result with
        | none => exact ⟨.wait, by simp [exec, hres, hp]⟩
        | some r => exact absurd (h.result r hres).1 hnf
      · obtain ⟨k, k1, k2⟩ := hN.fed i (Nat.pos_of_ne_zero h0) hi
        subst k2
        cases hmo : N.multiOut (N.src k) with
        | true =>
          cases hh : s.held k with
          | some e' => exact absurd (h.held k e' hh).2.2 hnf
          | none => exact ⟨.forward k, by simp [exec, hp, hh, k1, hmo]⟩
        | false =>
          have hsn : N.src k < N.n := by have := hN.fwd k k1; omega
          cases hq : s.phase (N.src k) with
          | reading => exact ⟨.errFrom k 0, by simp [exec, k1, hmo, hp, recv, hq]⟩
          | waiting f => exact ⟨.errFrom k 0, by simp [exec, k1, hmo, hp, recv, hq]⟩
          | processing v => exact canStep_active hsn (.inl ⟨v, hq⟩)
          | producing c => exact canStep_active hsn (.inr (.inl ⟨c, hq⟩))
          | breaking f => exact canStep_active hsn (.inr (.inr (.inl ⟨f, hq⟩)))
          | sending pend rest brk err found =>
            cases pend with
            | nil => exact canStep_active hsn (.inr (.inr (.inr ⟨rest, brk, err, found, hq⟩)))
            | cons x ps => exact ⟨.errFrom k 0, by simp [exec, k1, hmo, hp, recv, hq, allowed_zero]⟩
          | reporting e' => exact absurd (hsg k k1 hmo (by rw [hq]; rfl)) hnf
          | finished => exact absurd (hsg k k1 hmo (by rw [hq]; rfl)) hnf

/-- When nothing can happen any more, `Wait` has returned and all stages have finished. -/
theorem tree_stuck {N : Net α σ} (hN : N.WF) {G : Nat → Prop} (hT : Tree N G) {s : St α σ} {t : Nat → Prop} (h : Told N G s t) (q : Quiet N G s t) (hsg : Single N s.phase)
    (ho : ∀ i, PhaseAll (Own N i) (s.phase i)) (hst : ¬ CanStep N s) : s.result ≠ none ∧ ∀ i < N.n, s.phase i = .finished := by
  have hall : ∀ i < N.n, s.phase i = .finished := by
    rcases least_or (P := fun i => s.phase i = .finished) N.n with hall | ⟨i, hi, hni, hlt⟩
    · exact hall
    · exfalso
      refine hst (tree_progress hN hT h q hsg ho _ i rfl hi hni ?_)
      intro _ k hk
      obtain ⟨k1, k2⟩ := mem_ins.mp hk
      rw [hlt (N.src k) (by have := (hN.fwd k k1).1; omega)]
      rfl
  refine ⟨?_, hall⟩
  intro hres
  exact hst ⟨.wait, by simp [exec, hres, hall 0 hN.pos]⟩

/-! ## The errors that are returned are errors of the functions -/

structure Known (N : Net α σ) (s : St α σ) : Prop where
  phase : ∀ i, ∀ e ∈ carry (s.phase i), ∃ j < N.n, e ∈ s.fails j
  held : ∀ k l, s.held k = some l → ∀ e ∈ l, ∃ j < N.n, e ∈ s.fails j
  result : ∀ r, s.result = some r → ∀ e ∈ r, ∃ j < N.n, e ∈ s.fails j

theorem known_init (N : Net α σ) (s0 : Nat → σ) (script : List (Call α)) : Known N (St.init s0 script : St α σ) :=
  ⟨(by intro i e h; cases h), (by intro k l h; cases h), (by intro r h; cases h)⟩

theorem carry_recv {m : Mode} {ph ph' : Phase α} {e : List Nat} {p : Nat} (h : recv m ph e p = some ph') : ∀ x ∈ carry ph', x ∈ carry ph ∨ x ∈ e := by
  intro x hx
  rcases recv_shape h with ⟨h1, h2, _⟩ | ⟨f, h1, h2, _⟩ | ⟨pend', rest', brk', err', found', h1, h2, h3⟩
  · rw [h2] at hx; exact .inr hx
  · rw [h2] at hx
    rw [h1]
    have : x ∈ f ++ e := by
      cases hfe : f ++ e with
      | nil => rw [hfe] at hx; cases hx
      | cons a l => rw [hfe] at hx; exact hx
    rcases List.mem_append.mp this with h | h
    · exact .inl h
    · exact .inr h
  · rw [h3] at hx; exact .inr hx

theorem carry_afterCall (c : Call α) : carry (afterCall c) = c.failure := by
  unfold Call.failure afterCall; cases c.outcome <;> rfl
theorem carry_afterEnd (c : Call α) : carry (afterEnd c) = c.failure := by
  unfold Call.failure afterEnd; cases c.outcome <;> rfl
theorem carry_afterSent (rest : List (Batch α)) (brk err : Bool) (found : List Nat) : ∀ x ∈ carry (afterSent rest brk err found), x ∈ found := by
  unfold afterSent
  split
  · exact fun _ h => h
  · cases rest with
    | nil => intro x h; cases h
    | cons b bs => exact fun _ h => h

theorem known_upd {N : Net α σ} {s : St α σ} (h : Known N s) {i : Nat} {ph : Phase α} (hc : ∀ x ∈ carry ph, ∃ j < N.n, x ∈ s.fails j) :
    ∀ j, ∀ e ∈ carry (upd s.phase i ph j), ∃ j < N.n, e ∈ s.fails j :=
  forall_upd (P := fun _ ph => ∀ e ∈ carry ph, ∃ j < N.n, e ∈ s.fails j) h.phase hc

theorem known_call {N : Net α σ} {s : St α σ} (h : Known N s) {i : Nat} (hi : i < N.n) {c : Call α} {ph : Phase α} (hph : carry ph = c.failure) (st : Nat → σ) :
    Known N { s with phase := upd s.phase i ph, st := st, fails := upd s.fails i (s.fails i ++ c.failure) } := by
  have mono : ∀ x, (∃ j < N.n, x ∈ s.fails j) → ∃ j < N.n, x ∈ upd s.fails i (s.fails i ++ c.failure) j := by
    rintro x ⟨j, hj, hx⟩
    refine ⟨j, hj, ?_⟩
    rw [upd_apply]
    split
    · rename_i e; rw [e] at hx; exact List.mem_append_left _ hx
    · exact hx
  obtain ⟨a1, a2, a3⟩ := h
  refine ⟨?_, fun k l hk e he => mono e (a2 k l hk e he), fun r hr e he => mono e (a3 r hr e he)⟩
  intro j e he
  by_cases e' : j = i
  · subst e'
    simp only [upd_self, hph] at he
    exact ⟨j, hi, by simp only [upd_self]; exact List.mem_append_right _ he⟩
  · simp only [upd_ne _ _ e'] at he
    exact mono e (a1 j e he)

theorem known_step {N : Net α σ} {s s' : St α σ} (h : Known N s) (hs : Step N s s') : Known N s' := by
  have hh := h
  obtain ⟨a1, a2, a3⟩ := h
  cases hs with
  | pollEnd h hs => exact ⟨known_upd hh (by intro x h; cases h), a2, a3⟩
  | poll c cs h hs => exact ⟨known_upd hh (by intro x h; cases h), a2, a3⟩
  | push k p pend rest brk err found v h hsl hp hk ha hm =>
    have := a1 (N.src k); rw [h] at this
    exact ⟨known_upd hh this, a2, a3⟩
  | direct k p pend rest brk err found v h hd hp hk ha hm =>
    have := a1 (N.src k); rw [h] at this
    refine ⟨?_, a2, a3⟩
    exact forall_upd (P := fun _ ph => ∀ e ∈ carry ph, ∃ j < N.n, e ∈ s.fails j) (known_upd hh this) (by intro x h; cases h)
  | pull k v h hsl hk => exact ⟨known_upd hh (by intro x h; cases h), a2, a3⟩
  | closed j h h0 hj hc => exact ⟨known_upd hh (by intro x h; cases h), a2, a3⟩
  | callSome i v hi h => exact known_call hh hi (carry_afterCall _) _
  | callSrc hi h => exact ⟨known_upd hh (by intro x h; cases h), a2, a3⟩
  | callEnd i hi h0 h => exact known_call hh hi (carry_afterEnd _) _
  | callProd i c hi h => exact known_call hh hi (carry_afterCall _) s.st
  | sent i rest brk err found hi h =>
    have := a1 i; rw [h] at this
    exact ⟨known_upd hh (fun x hx => this x (carry_afterSent _ _ _ _ x hx)), a2, a3⟩
  | close i f hi h =>
    have := a1 i; rw [h] at this
    exact ⟨known_upd hh this, a2, a3⟩
  | forward k e h hh' hk hm =>
    have := a1 (N.dst k); rw [h] at this
    refine ⟨known_upd hh (by intro x h; cases h), ?_, a3⟩
    intro k' l hl
    have hl : upd s.held k (some e) k' = some l := hl
    rw [upd_apply] at hl
    split at hl
    · cases hl; exact this
    · exact a2 k' l hl
  | errHeld k p e ph hk hm hh' hr =>
    refine ⟨known_upd hh ?_, ?_, a3⟩
    · intro x hx
      rcases carry_recv hr x hx with h | h
      · exact a1 _ x h
      · exact a2 k e hh' x h
    · intro k' l hl
      have hl : upd s.held k none k' = some l := hl
      rw [upd_apply] at hl
      split at hl
      · cases hl
      · exact a2 k' l hl
  | errDirect k p e ph hk hm h hr =>
    have hd := a1 (N.dst k); rw [h] at hd
    refine ⟨?_, a2, a3⟩
    refine forall_upd (P := fun _ ph => ∀ e ∈ carry ph, ∃ j < N.n, e ∈ s.fails j) (known_upd hh ?_) (by intro x h; cases h)
    intro x hx
    rcases carry_recv hr x hx with h | h
    · exact a1 _ x h
    · exact hd x h
  | errNil i p ph hi hn hr =>
    refine ⟨known_upd hh ?_, a2, a3⟩
    intro x hx
    rcases carry_recv hr x hx with h | h
    · exact a1 _ x h
    · cases h
  | waitErr e hres h =>
    have := a1 0; rw [h] at this
    exact ⟨known_upd hh (by intro x h; cases h), a2, (by intro r hr; cases hr; exact this)⟩
  | waitNil hres h => exact ⟨a1, a2, (by intro r hr; cases hr; intro e h; cases h)⟩

end Fpki.Pipe
