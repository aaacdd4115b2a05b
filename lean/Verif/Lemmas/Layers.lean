import Verif.Model.Layers
import Verif.Lemmas.PipeTree
/-! # Lemmas on pipelines in layers: the steps as a relation, termination. -/
namespace Fpki.Layers
open Fpki.Stage (Mode)
open Fpki.Pipe (Outcome Call Fn Phase upd afterCall afterEnd afterSent report allowed dropAt recv upd_self upd_ne upd_apply LexLt lexLt_wf Triple tripleLt tripleLt_wf cls size size_erase recv_lt)

variable {α σ : Type}

/-- The steps, one constructor per case. -/
inductive Step (N : Net α σ) (s : St α σ) : St α σ → Prop
  | pollEnd (h : s.phase 0 = .reading) (hs : s.script = []) : Step N s { s with phase := upd s.phase 0 (.processing none) }
  | poll (c : Call α) (cs : List (Call α)) (h : s.phase 0 = .reading) (hs : s.script = c :: cs) : Step N s { s with phase := upd s.phase 0 (.producing c), script := cs }
  | give (i j p : Nat) (pend : List (Nat × α)) (rest : List (List (Nat × α))) (brk err : Bool) (found : List Nat) (v : α)
      (h : s.phase i = .sending pend rest brk err found) (hd : s.phase j = .reading) (hp : pend[p]? = some (0, v)) (hi : i < N.n) (hj : j < N.n) (hl : N.layer j = N.layer i + 1)
      (ha : allowed (N.mode i) p = true) :
      Step N s { s with phase := upd (upd s.phase i (.sending (pend.eraseIdx p) rest brk err found)) j (.processing (some v)), got := upd s.got j (s.got j ++ [v]) }
  | closed (j : Nat) (h : s.phase j = .reading) (h0 : 0 < j) (hj : j < N.n) (hc : inClosed N s j = true) : Step N s { s with phase := upd s.phase j (.processing none) }
  | callSome (i : Nat) (v : α) (hi : i < N.n) (h : s.phase i = .processing (some v)) :
      Step N s { s with phase := upd s.phase i (afterCall ((N.fn i).process (s.st i) v).2), st := upd s.st i ((N.fn i).process (s.st i) v).1,
                        fails := upd s.fails i (s.fails i ++ ((N.fn i).process (s.st i) v).2.failure) }
  | callSrc (hi : 0 < N.n) (h : s.phase 0 = .processing none) : Step N s { s with phase := upd s.phase 0 (.sending [] [] true false []) }
  | callEnd (i : Nat) (hi : i < N.n) (h0 : i ≠ 0) (h : s.phase i = .processing none) :
      Step N s { s with phase := upd s.phase i (afterEnd ((N.fn i).finish (s.st i)).2), st := upd s.st i ((N.fn i).finish (s.st i)).1,
                        fails := upd s.fails i (s.fails i ++ ((N.fn i).finish (s.st i)).2.failure) }
  | callProd (i : Nat) (c : Call α) (hi : i < N.n) (h : s.phase i = .producing c) :
      Step N s { s with phase := upd s.phase i (afterCall c), fails := upd s.fails i (s.fails i ++ c.failure) }
  | sent (i : Nat) (rest : List (List (Nat × α))) (brk err : Bool) (found : List Nat) (hi : i < N.n) (h : s.phase i = .sending [] rest brk err found) :
      Step N s { s with phase := upd s.phase i (afterSent rest brk err found) }
  | close (i : Nat) (f : List Nat) (hi : i < N.n) (h : s.phase i = .breaking f) : Step N s { s with phase := upd s.phase i (.waiting f) }
  | report (j : Nat) (e : List Nat) (h : s.phase j = .reporting e) (hf : s.fwd j = none) (h0 : 0 < j) (hj : j < N.n) :
      Step N s { s with phase := upd s.phase j .finished, fwd := upd s.fwd j (some e) }
  | relayIn (j : Nat) (e : List Nat) (hf : s.fwd j = some e) (hr : s.relay (N.layer j - 1) = none) (h0 : 0 < j) (hj : j < N.n) :
      Step N s { s with fwd := upd s.fwd j none, relay := upd s.relay (N.layer j - 1) (some (e, N.members (N.layer j - 1))), log := upd s.log (N.layer j - 1) (s.log (N.layer j - 1) ++ [e]) }
  | errTo (i p : Nat) (e r : List Nat) (ph : Phase α) (hin : i < N.n) (hr : s.relay (N.layer i) = some (e, r)) (hi : i ∈ r) (hv : recv (N.mode i) (s.phase i) e p = some ph) :
      Step N s { s with phase := upd s.phase i ph, relay := upd s.relay (N.layer i) (given r e i), heard := upd s.heard i (s.heard i ++ [e]) }
  | errNil (i p : Nat) (ph : Phase α) (hi : i < N.n) (hn : nilReady N s i = true) (hv : recv (N.mode i) (s.phase i) [] p = some ph) :
      Step N s { s with phase := upd s.phase i ph, heard := upd s.heard i (s.heard i ++ [[]]) }
  | waitErr (e : List Nat) (hres : s.result = none) (h : s.phase 0 = .reporting e) : Step N s { s with phase := upd s.phase 0 .finished, result := some e }
  | waitNil (hres : s.result = none) (h : s.phase 0 = .finished) : Step N s { s with result := some [] }

theorem exec_step {N : Net α σ} {s s' : St α σ} {ev : Ev} (h : exec N s ev = some s') : Step N s s' := by
  cases ev with
  | poll =>
    simp only [exec] at h
    split at h
    · rename_i h1
      split at h
      · rename_i h2; cases h; exact .pollEnd h1 h2
      · rename_i c cs h2; cases h; exact .poll c cs h1 h2
    · cases h
  | give i j p =>
    simp only [exec] at h
    split at h
    · rename_i pend rest brk err found h1 h2
      split at h
      · rename_i k v h3
        split at h
        · rename_i h4
          simp only [Bool.and_eq_true, decide_eq_true_eq, beq_iff_eq] at h4
          cases h
          obtain ⟨⟨⟨⟨a, b⟩, c⟩, d⟩, e⟩ := h4
          subst d
          exact .give i j p pend rest brk err found v h1 h2 h3 a b c e
        · cases h
      · cases h
    · cases h
  | closed j =>
    simp only [exec] at h
    split at h
    · rename_i h1
      split at h
      · rename_i h2
        simp only [Bool.and_eq_true, decide_eq_true_eq] at h2
        cases h
        exact .closed j h1 h2.1.1 h2.1.2 h2.2
      · cases h
    · cases h
  | call i =>
    simp only [exec] at h
    split at h
    · rename_i hi
      split at h
      · rename_i v h1; cases h; exact .callSome i v hi h1
      · rename_i h1
        split at h
        · rename_i h0; subst h0; cases h; exact .callSrc hi h1
        · rename_i h0; cases h; exact .callEnd i hi h0 h1
      · rename_i c h1; cases h; exact .callProd i c hi h1
      · cases h
    · cases h
  | sent i =>
    simp only [exec] at h
    split at h
    · rename_i rest brk err found h1
      split at h
      · rename_i hi; cases h; exact .sent i rest brk err found hi h1
      · cases h
    · cases h
  | close i =>
    simp only [exec] at h
    split at h
    · rename_i f h1
      split at h
      · rename_i hi; cases h; exact .close i f hi h1
      · cases h
    · cases h
  | report j =>
    simp only [exec] at h
    split at h
    · rename_i e h1 h2
      split at h
      · rename_i h3
        simp only [Bool.and_eq_true, decide_eq_true_eq] at h3
        cases h; exact .report j e h1 h2 h3.1 h3.2
      · cases h
    · cases h
  | relayIn j =>
    simp only [exec] at h
    split at h
    · rename_i e h1 h2
      split at h
      · rename_i h3
        simp only [Bool.and_eq_true, decide_eq_true_eq] at h3
        cases h; exact .relayIn j e h1 h2 h3.1 h3.2
      · cases h
    · cases h
  | errTo i p =>
    simp only [exec] at h
    split at h
    · rename_i e r h1
      split at h
      · rename_i h2
        split at h
        · rename_i ph h3; cases h; exact .errTo i p e r ph h2.1 h1 h2.2 h3
        · cases h
      · cases h
    · cases h
  | errNil i p =>
    simp only [exec] at h
    split at h
    · rename_i h1
      simp only [Bool.and_eq_true, decide_eq_true_eq] at h1
      split at h
      · rename_i ph h3; cases h; exact .errNil i p ph h1.1 h1.2 h3
      · cases h
    · cases h
  | wait =>
    simp only [exec] at h
    split at h
    · rename_i e h1 h2; cases h; exact .waitErr e h1 h2
    · rename_i h1 h2; cases h; exact .waitNil h1 h2
    · cases h

theorem run_inv {N : Net α σ} {P : St α σ → Prop} (hstep : ∀ s s', P s → Step N s s' → P s') {s s' : St α σ} {es : List Ev} (h : run N s es = some s') (h0 : P s) : P s' := by
  induction es generalizing s with
  | nil => cases h; exact h0
  | cons e es ih =>
    simp only [run, Option.bind_eq_some_iff] at h
    obtain ⟨s1, h1, h2⟩ := h
    exact ih h2 (hstep _ _ h0 (exec_step h1))

/-- The network is built layer by layer: only the source is in layer 0, later layers have later numbers, and no layer is missing. -/
structure Net.WF (N : Net α σ) : Prop where
  pos : 0 < N.n
  zero : ∀ i < N.n, N.layer i = 0 ↔ i = 0
  mono : ∀ i j, i < N.n → j < N.n → N.layer i < N.layer j → i < j
  gap : ∀ j < N.n, ∀ l < N.layer j, ∃ i < N.n, N.layer i = l

theorem mem_members {N : Net α σ} {l i : Nat} : i ∈ N.members l ↔ i < N.n ∧ N.layer i = l := by simp [Net.members]

theorem members_nodup (N : Net α σ) (l : Nat) : (N.members l).Nodup := List.Nodup.sublist List.filter_sublist List.nodup_range

theorem members_length (N : Net α σ) (l : Nat) : (N.members l).length ≤ N.n := by
  have := List.length_filter_le (fun i => N.layer i == l) (List.range N.n)
  rwa [List.length_range] at this

/-! ## Termination -/

/-- What the goroutines for errors still have to do. -/
def errWork (N : Net α σ) (s : St α σ) : Nat :=
  ((List.range N.n).map fun j => if (s.fwd j).isSome then N.n + 1 else 0).sum

def mu (N : Net α σ) (s : St α σ) (i : Nat) : Triple :=
  if i = N.n then (0, errWork N s, if s.result.isNone then 1 else 0)
  else ((if i = 0 then s.script.length else 0), cls (s.phase i), size (s.phase i))

theorem sum_upd_lt {n j : Nat} (hj : j < n) {f g : Nat → Nat} (hlt : g j < f j) (he : ∀ i, i ≠ j → g i = f i) : ((List.range n).map g).sum < ((List.range n).map f).sum := by
  induction n with
  | zero => exact absurd hj (Nat.not_lt_zero j)
  | succ n ih =>
    rw [List.range_succ, List.map_append, List.map_append, List.sum_append, List.sum_append]
    simp only [List.map_cons, List.map_nil, List.sum_cons, List.sum_nil, Nat.add_zero]
    by_cases h : j = n
    · subst h
      have : (List.range j).map g = (List.range j).map f := List.map_congr_left fun i hi => he i (Nat.ne_of_lt (List.mem_range.mp hi))
      rw [this]; omega
    · have := ih (by omega)
      rw [he n (fun e => h e.symm)]
      omega

theorem step_mu {N : Net α σ} (hN : N.WF) {s s' : St α σ} (h : Step N s s') : LexLt tripleLt (N.n + 1) (mu N s') (mu N s) := by
  have key : ∀ (i : Nat) (ph : Phase α) (st : Nat → σ) (fwd : Nat → Option (List Nat)) (relay : Nat → Option (List Nat × List Nat)) (res : Option (List Nat)) (fails : Nat → List Nat)
      (heard : Nat → List (List Nat)), i < N.n →
      Prod.Lex (· < ·) (· < ·) (cls ph, size ph) (cls (s.phase i), size (s.phase i)) →
      LexLt tripleLt (N.n + 1) (mu N { s with phase := upd s.phase i ph, st := st, fwd := fwd, relay := relay, result := res, fails := fails, heard := heard }) (mu N s) := by
    intro i ph st fwd relay res fails heard hi hlt
    refine ⟨i, by omega, ?_, ?_⟩
    · have hne : i ≠ N.n := by omega
      simp only [mu, hne, if_false, upd_self]
      exact Prod.Lex.right _ hlt
    · intro j hj
      have hne : j ≠ i := by omega
      have hne' : j ≠ N.n := by omega
      simp only [mu, hne', if_false, upd_ne _ _ hne]
  cases h with
  | pollEnd h hs => exact key 0 _ s.st s.fwd s.relay s.result s.fails s.heard hN.pos (by rw [h]; exact Prod.Lex.left _ _ (by simp [cls]))
  | poll c cs h hs =>
    refine ⟨0, by omega, ?_, fun j hj => absurd hj (Nat.not_lt_zero j)⟩
    have hne : ¬ 0 = N.n := by have := hN.pos; omega
    simp only [mu, hne, if_false, if_true, hs]
    exact Prod.Lex.left _ _ (by simp)
  | give i j p pend rest brk err found v h hd hp hi hj hl ha =>
    have hij : i < j := hN.mono i j hi hj (by omega)
    refine ⟨i, by omega, ?_, ?_⟩
    · have hne : i ≠ N.n := by omega
      have hd : i ≠ j := by omega
      simp only [mu, hne, if_false, upd_ne _ _ hd, upd_self, h]
      refine Prod.Lex.right _ ?_
      have hc : cls (Phase.sending (pend.eraseIdx p) rest brk err found) = cls (Phase.sending pend rest brk err found) := by cases brk <;> rfl
      rw [hc]
      refine Prod.Lex.right _ ?_
      have := size_erase (rest := rest) hp
      simp only [size]; omega
    · intro k hk
      have hne : k ≠ i := by omega
      have hne' : k ≠ N.n := by omega
      have hd : k ≠ j := by omega
      simp only [mu, hne', if_false, upd_ne _ _ hd, upd_ne _ _ hne]
  | closed j h h0 hj hc => exact key j _ s.st s.fwd s.relay s.result s.fails s.heard hj (by rw [h]; exact Prod.Lex.left _ _ (by simp [cls]))
  | callSome i v hi h =>
    refine key i _ _ s.fwd s.relay s.result _ s.heard hi ?_
    rw [h]
    refine Prod.Lex.left _ _ ?_
    unfold afterCall
    split <;> simp [cls]
  | callSrc hi h => exact key 0 _ s.st s.fwd s.relay s.result s.fails s.heard hi (by rw [h]; exact Prod.Lex.left _ _ (by simp [cls]))
  | callEnd i hi h0 h =>
    refine key i _ _ s.fwd s.relay s.result _ s.heard hi ?_
    rw [h]
    refine Prod.Lex.left _ _ ?_
    unfold afterEnd
    split <;> simp [cls]
  | callProd i c hi h =>
    refine key i _ s.st s.fwd s.relay s.result _ s.heard hi ?_
    rw [h]
    refine Prod.Lex.left _ _ ?_
    unfold afterCall
    split <;> simp [cls]
  | sent i rest brk err found hi h =>
    refine key i _ s.st s.fwd s.relay s.result s.fails s.heard hi ?_
    rw [h]
    unfold afterSent
    split
    · refine Prod.Lex.left _ _ ?_
      cases brk <;> simp [cls]
    · rename_i hb
      simp only [Bool.or_eq_true, not_or, Bool.not_eq_true] at hb
      rw [hb.1]
      cases rest with
      | nil => exact Prod.Lex.left _ _ (by simp [cls])
      | cons b bs =>
        have hc : cls (Phase.sending b bs false false found) = cls (Phase.sending [] (b :: bs) false err found) := rfl
        rw [hc]
        refine Prod.Lex.right _ ?_
        simp only [size, List.length_nil, List.map_cons, List.sum_cons]; omega
  | close i f hi h => exact key i _ s.st s.fwd s.relay s.result s.fails s.heard hi (by rw [h]; exact Prod.Lex.left _ _ (by simp [cls]))
  | report j e h hf h0 hj => exact key j _ s.st _ s.relay s.result s.fails s.heard hj (by rw [h]; exact Prod.Lex.left _ _ (by simp [cls]))
  | relayIn j e hf hr h0 hj =>
    refine ⟨N.n, by omega, ?_, ?_⟩
    · simp only [mu, if_true]
      refine Prod.Lex.right _ (Prod.Lex.left _ _ ?_)
      refine sum_upd_lt hj ?_ ?_
      · simp only [upd_self, hf, Option.isSome_none, Option.isSome_some, if_true, Bool.false_eq_true, if_false]; omega
      · intro i hi
        simp only [upd_ne _ _ hi]
    · intro i hi
      have hne : i ≠ N.n := by omega
      simp only [mu, hne, if_false]
  | errTo i p e r ph hin hr hi hv => exact key i _ s.st s.fwd _ s.result s.fails _ hin (recv_lt hv)
  | errNil i p ph hi hn hv => exact key i _ s.st s.fwd s.relay s.result s.fails _ hi (recv_lt hv)
  | waitErr e hres h => exact key 0 _ s.st s.fwd s.relay _ s.fails s.heard hN.pos (by rw [h]; exact Prod.Lex.left _ _ (by simp [cls]))
  | waitNil hres h =>
    refine ⟨N.n, by omega, ?_, ?_⟩
    · simp only [mu, if_true, hres]
      exact Prod.Lex.right _ (Prod.Lex.right _ (by simp))
    · intro j hj
      have hne : j ≠ N.n := by omega
      simp only [mu, hne, if_false]

end Fpki.Layers
