import Verif.Lemmas.PipeNoFail
import Mathlib.Data.List.Perm.Basic
/-! # Pipelines in which no function fails: every output arrives. -/
namespace Fpki.Pipe
open Fpki.Stage (Mode)

variable {α σ : Type}

/-! ## Specification -/

/-- The values for channel `k`, in order. -/
def onChan (k : Nat) (l : Batch α) : List α := (l.filter fun x => x.1 == k).map Prod.snd

/-- State and outputs after the process function was called for each of the values. -/
def calls (f : Fn α σ) (s : σ) : List α → σ × Batch α
  | [] => (s, [])
  | v :: vs => ((calls f (f.process s v).1 vs).1, (f.process s v).2.batches.flatten ++ (calls f (f.process s v).1 vs).2)

/-- All outputs of a stage that is given the values and then the end of its input. -/
def everything (f : Fn α σ) (s : σ) (vs : List α) : Batch α := (calls f s vs).2 ++ (f.finish (calls f s vs).1).2.batches.flatten

/-- All outputs of the calls of the source. -/
def scriptOuts (script : List (Call α)) : Batch α := script.flatMap fun c => c.batches.flatten

/-- All outputs of stage `i`, given what it has received. -/
def produced (N : Net α σ) (s0 : Nat → σ) (script : List (Call α)) (got : Nat → List (Nat × α)) (i : Nat) : Batch α :=
  if i = 0 then scriptOuts script else everything (N.fn i) (s0 i) ((got i).map Prod.snd)

/-- All batches of stage `i` have at most one output per channel. -/
def Distinct (N : Net α σ) (script : List (Call α)) (i : Nat) : Prop :=
  (∀ s v, CallAll (fun b => (b.map Prod.fst).Nodup) ((N.fn i).process s v).2) ∧ (∀ s, CallAll (fun b => (b.map Prod.fst).Nodup) ((N.fn i).finish s).2) ∧
  (i = 0 → ∀ c ∈ script, CallAll (fun b => (b.map Prod.fst).Nodup) c)

/-- The order of the outputs on each channel is kept. -/
def Ordered (N : Net α σ) (script : List (Call α)) (i : Nat) : Prop := N.mode i = .sequential ∨ Distinct N script i

/-- Stage functions put their outputs on channels that the stage has. -/
abbrev OwnChannels (N : Net α σ) (script : List (Call α)) : Prop := NetAll (Own N) N script

/-- The end functions do not stream. -/
def EndOnce (N : Net α σ) : Prop := ∀ i s, ((N.fn i).finish s).2.batches.length ≤ 1

/-! ## Lemmas -/

theorem calls_snoc (f : Fn α σ) (s : σ) (vs : List α) (v : α) :
    calls f s (vs ++ [v]) = ((f.process (calls f s vs).1 v).1, (calls f s vs).2 ++ (f.process (calls f s vs).1 v).2.batches.flatten) := by
  induction vs generalizing s with
  | nil => simp [calls]
  | cons w vs ih => simp only [List.cons_append, calls, ih, List.append_assoc]

@[simp] theorem onChan_nil (k : Nat) : onChan k ([] : Batch α) = [] := rfl
@[simp] theorem onChan_append (k : Nat) (l l' : Batch α) : onChan k (l ++ l') = onChan k l ++ onChan k l' := by simp [onChan]
theorem onChan_cons (k k' : Nat) (v : α) (l : Batch α) : onChan k ((k', v) :: l) = (if k' = k then [v] else []) ++ onChan k l := by
  simp only [onChan, List.filter_cons]
  by_cases h : k' = k
  · simp [h]
  · have : (k' == k) = false := by simpa using h
    simp [h, this]

theorem onChan_of_not_mem {k : Nat} {l : Batch α} (h : k ∉ l.map Prod.fst) : onChan k l = [] := by
  simp only [onChan, List.map_eq_nil_iff, List.filter_eq_nil_iff]
  intro x hx hk
  exact h (List.mem_map.mpr ⟨x, hx, by simpa using hk⟩)

/-- Equal up to order; equal if `d`. -/
def Rel (d : Prop) (a b : List α) : Prop := a.Perm b ∧ (d → a = b)

theorem Rel.of_eq {d : Prop} {a b : List α} (h : a = b) : Rel d a b := ⟨h ▸ List.Perm.refl _, fun _ => h⟩
theorem Rel.trans {d : Prop} {a b c : List α} (h : Rel d a b) (h' : Rel d b c) : Rel d a c := ⟨h.1.trans h'.1, fun x => (h.2 x).trans (h'.2 x)⟩
theorem Rel.append {d : Prop} {a b c e : List α} (h : Rel d a b) (h' : Rel d c e) : Rel d (a ++ c) (b ++ e) :=
  ⟨h.1.append h'.1, fun x => by rw [h.2 x, h'.2 x]⟩

theorem rel_erase {d : Prop} {m : Mode} {pend : Batch α} {p k : Nat} {v : α} (hp : pend[p]? = some (k, v)) (ha : allowed m p = true)
    (hd : d → m = .sequential ∨ (pend.map Prod.fst).Nodup) (k' : Nat) :
    Rel d (onChan k' pend) ((if k = k' then [v] else []) ++ onChan k' (pend.eraseIdx p)) := by
  obtain ⟨hlt, hv⟩ := List.getElem?_eq_some_iff.mp hp
  have hperm : (pend[p] :: pend.eraseIdx p).Perm pend := List.getElem_cons_eraseIdx_perm hlt
  refine ⟨?_, ?_⟩
  · rw [← onChan_cons, ← hv]
    exact ((hperm.filter _).map _).symm
  · intro x
    rcases hd x with hs | hnd
    · subst hs
      have h0 : p = 0 := by simpa [allowed] using ha
      subst h0
      cases pend with
      | nil => simp at hlt
      | cons y ps => simp at hv; subst hv; rw [onChan_cons]; rfl
    · have hnd' : ((pend[p] :: pend.eraseIdx p).map Prod.fst).Nodup := (hperm.map _).nodup_iff.mpr hnd
      rw [hv] at hnd'
      simp only [List.map_cons, List.nodup_cons] at hnd'
      by_cases hk : k = k'
      · subst hk
        rw [onChan_of_not_mem hnd'.1, if_pos rfl, List.append_nil]
        have hpe : (onChan k pend).Perm [v] := by
          have := ((hperm.filter (fun x => x.1 == k)).map Prod.snd).symm
          rw [hv] at this
          have h2 : onChan k ((k, v) :: pend.eraseIdx p) = [v] := by rw [onChan_cons, onChan_of_not_mem hnd'.1]; simp
          exact this.trans (h2 ▸ List.Perm.refl _)
        exact List.perm_singleton.mp hpe
      · -- other channels keep their order
        simp only [hk, if_false, List.nil_append]
        have hsplit : pend = pend.take p ++ pend[p] :: pend.drop (p + 1) := by
          rw [List.getElem_cons_drop, List.take_append_drop]
        rw [List.eraseIdx_eq_take_drop_succ]
        conv => lhs; rw [hsplit]
        rw [onChan_append, hv, onChan_cons, if_neg hk, List.nil_append, ← onChan_append]

def todo : Phase α → Batch α
  | .sending pend rest _ _ _ => pend ++ rest.flatten
  | _ => []

def sentOn (N : Net α σ) (s : St α σ) (k : Nat) : List α := onChan k (s.got (N.dst k)) ++ (s.slot k).toList

/-- `O` are the outputs of the calls that stage `i` (not the source) has made. -/
def NodeOk (f : Fn α σ) (s0 : σ) (vals : List α) (ph : Phase α) (st : σ) (O : Batch α) : Prop :=
  match ph with
  | .processing (some v) => ∃ vs, vals = vs ++ [v] ∧ calls f s0 vs = (st, O)
  | .reading => calls f s0 vals = (st, O)
  | .processing none => calls f s0 vals = (st, O)
  | .sending _ _ false _ _ => calls f s0 vals = (st, O)
  | .producing _ => False
  | _ => O = everything f s0 vals

/-- The same for the source. -/
def SrcOk (script0 script : List (Call α)) (ph : Phase α) (O : Batch α) : Prop :=
  match ph with
  | .producing c => ∃ u, script0 = u ++ c :: script ∧ O = scriptOuts u
  | .reading => ∃ u, script0 = u ++ script ∧ O = scriptOuts u
  | .sending _ _ false _ _ => ∃ u, script0 = u ++ script ∧ O = scriptOuts u
  | .processing (some _) => False
  | _ => O = scriptOuts script0

def Ok (N : Net α σ) (s0 : Nat → σ) (script0 : List (Call α)) (s : St α σ) (i : Nat) (ph : Phase α) (st : σ) (script : List (Call α)) (O : Batch α) : Prop :=
  if i = 0 then SrcOk script0 script ph O else NodeOk (N.fn i) (s0 i) ((s.got i).map Prod.snd) ph st O

structure OutInv (N : Net α σ) (s0 : Nat → σ) (script0 : List (Call α)) (s : St α σ) : Prop where
  slot : ∀ k, s.slot k ≠ none → N.multiIn (N.dst k) = true
  node : ∀ i, ∃ O, Ok N s0 script0 s i (s.phase i) (s.st i) s.script O ∧ ∀ k < N.m, N.src k = i → Rel (Ordered N script0 i) (onChan k O) (sentOn N s k ++ onChan k (todo (s.phase i)))

theorem outInv_init (N : Net α σ) (s0 : Nat → σ) (script : List (Call α)) : OutInv N s0 script (St.init s0 script) := by
  refine ⟨fun k h => absurd rfl h, fun i => ⟨[], ?_, ?_⟩⟩
  · unfold Ok
    split
    · exact ⟨[], rfl, rfl⟩
    · rfl
  · intro k hk hs
    exact Rel.of_eq rfl

/-- A change of stage `i` that sends and receives nothing. -/
theorem outInv_upd {N : Net α σ} {s0 : Nat → σ} {script0 : List (Call α)} {s : St α σ} (h : OutInv N s0 script0 s) {i : Nat} {ph : Phase α} {st' : σ} {script' : List (Call α)}
    (held : Nat → Option (List Nat)) (result : Option (List Nat)) (fails : Nat → List Nat)
    (hscr : i ≠ 0 → script' = s.script)
    (hO : ∀ O, Ok N s0 script0 s i (s.phase i) (s.st i) s.script O → ∃ O', Ok N s0 script0 s i ph st' script' (O ++ O') ∧
      todo ph = todo (s.phase i) ++ O') :
    OutInv N s0 script0 { s with phase := upd s.phase i ph, st := upd s.st i st', script := script', held := held, result := result, fails := fails } := by
  obtain ⟨h1, h2⟩ := h
  refine ⟨h1, ?_⟩
  intro j
  obtain ⟨O, hok, hrel⟩ := h2 j
  by_cases e : j = i
  · subst e
    obtain ⟨O', hok', htodo⟩ := hO O hok
    refine ⟨O ++ O', ?_, ?_⟩
    · simp only [upd_self]; exact hok'
    · intro k hk hs
      have := hrel k hk hs
      simp only [upd_self]
      rw [htodo, onChan_append, onChan_append, ← List.append_assoc]
      exact this.append (Rel.of_eq rfl)
  · refine ⟨O, ?_, ?_⟩
    · simp only [upd_ne _ _ e]
      unfold Ok at hok ⊢
      by_cases hj : j = 0
      · subst hj
        simp only [if_true] at hok ⊢
        rw [hscr (fun h => e h.symm)]
        exact hok
      · simp only [hj, if_false] at hok ⊢
        exact hok
    · intro k hk hs
      simp only [upd_ne _ _ e]
      exact hrel k hk hs

theorem outInv_upd' {N : Net α σ} {s0 : Nat → σ} {script0 : List (Call α)} {s : St α σ} (h : OutInv N s0 script0 s) {i : Nat} {ph : Phase α}
    (fails : Nat → List Nat)
    (hO : ∀ O, Ok N s0 script0 s i (s.phase i) (s.st i) s.script O → ∃ O', Ok N s0 script0 s i ph (s.st i) s.script (O ++ O') ∧
      todo ph = todo (s.phase i) ++ O') :
    OutInv N s0 script0 { s with phase := upd s.phase i ph, fails := fails } := by
  have := outInv_upd h (i := i) (ph := ph) (st' := s.st i) (script' := s.script) s.held s.result fails (fun _ => rfl) hO
  have he : upd s.st i (s.st i) = s.st := by funext j; rw [upd_apply]; split <;> rename_i e <;> simp [e]
  rw [he] at this
  exact this

theorem head_append_tail_flatten (l : List (Batch α)) : l.headD [] ++ l.tail.flatten = l.flatten := by cases l <;> simp

theorem head_of_short {l : List (Batch α)} (h : l.length ≤ 1) : l.headD [] = l.flatten := by
  cases l with
  | nil => rfl
  | cons b bs =>
    cases bs with
    | nil => simp
    | cons c cs => simp at h

/-! ## `NoMoreData` is not followed by other batches -/

def tight : Phase α → Prop
  | .sending _ rest brk _ _ => brk = true → rest = []
  | _ => True

theorem tight_afterCall (c : Call α) : tight (afterCall c) := by
  unfold afterCall
  split
  · trivial
  · intro _; rfl
  · intro h; cases h

theorem tight_afterEnd (c : Call α) : tight (afterEnd c) := by
  unfold afterEnd
  split
  · trivial
  · intro _; rfl

theorem tight_recv {m : Mode} {ph ph' : Phase α} {e : List Nat} {p : Nat} (h : recv m ph e p = some ph') (hp : tight ph) : tight ph' := by
  cases ph with
  | reading => simp only [recv] at h; split at h <;> cases h; trivial
  | waiting f => simp only [recv] at h; split at h <;> cases h; cases f ++ e <;> trivial
  | sending pend rest brk err found => simp only [recv] at h; split at h <;> cases h; exact hp
  | processing v => cases h
  | producing c => cases h
  | breaking f => cases h
  | reporting e => cases h
  | finished => cases h

theorem tight_step {N : Net α σ} {s s' : St α σ} (h1 : ∀ i, tight (s.phase i)) (hs : Step N s s') : ∀ i, tight (s'.phase i) := by
  cases hs with
  | pollEnd h hs => exact forall_upd (P := fun _ ph => tight ph) h1 trivial
  | poll c cs h hs => exact forall_upd (P := fun _ ph => tight ph) h1 trivial
  | push k p pend rest brk err found v h hsl hp hk ha hm =>
    have := h1 (N.src k); rw [h] at this
    exact forall_upd (P := fun _ ph => tight ph) h1 this
  | direct k p pend rest brk err found v h hd hp hk ha hm =>
    have := h1 (N.src k); rw [h] at this
    exact forall_upd (P := fun _ ph => tight ph) (forall_upd (P := fun _ ph => tight ph) h1 this) trivial
  | pull k v h hsl hk => exact forall_upd (P := fun _ ph => tight ph) h1 trivial
  | closed j h h0 hj hc => exact forall_upd (P := fun _ ph => tight ph) h1 trivial
  | callSome i v hi h => exact forall_upd (P := fun _ ph => tight ph) h1 (tight_afterCall _)
  | callSrc hi h => exact forall_upd (P := fun _ ph => tight ph) h1 (fun _ => rfl)
  | callEnd i hi h0 h => exact forall_upd (P := fun _ ph => tight ph) h1 (tight_afterEnd _)
  | callProd i c hi h => exact forall_upd (P := fun _ ph => tight ph) h1 (tight_afterCall _)
  | sent i rest brk err found hi h =>
    refine forall_upd (P := fun _ ph => tight ph) h1 ?_
    unfold afterSent
    split
    · trivial
    · cases rest with
      | nil => trivial
      | cons b bs => intro h; cases h
  | close i f hi h => exact forall_upd (P := fun _ ph => tight ph) h1 trivial
  | forward k e h hh hk hm => exact forall_upd (P := fun _ ph => tight ph) h1 trivial
  | errHeld k p e ph hk hm hh hr => exact forall_upd (P := fun _ ph => tight ph) h1 (tight_recv hr (h1 _))
  | errDirect k p e ph hk hm h hr => exact forall_upd (P := fun _ ph => tight ph) (forall_upd (P := fun _ ph => tight ph) h1 (tight_recv hr (h1 _))) trivial
  | errNil i p ph hi hn hr => exact forall_upd (P := fun _ ph => tight ph) h1 (tight_recv hr (h1 _))
  | waitErr e hres h => exact forall_upd (P := fun _ ph => tight ph) h1 trivial
  | waitNil hres h => exact h1

theorem outInv_step {N : Net α σ} (hN : N.WF) {s0 : Nat → σ} {script0 : List (Call α)} (hF : NoFail N script0) (hE : EndOnce N) {s s' : St α σ}
    (hd : AllInv (fun i b => Distinct N script0 i → (b.map Prod.fst).Nodup) s) (hnf : NF N s) (ht : ∀ i, tight (s.phase i))
    (h : OutInv N s0 script0 s) (hs : Step N s s') : OutInv N s0 script0 s' := by
  have hh := h
  obtain ⟨h1, h2⟩ := h
  have ord : ∀ i pend rest brk err found, s.phase i = .sending pend rest brk err found → Ordered N script0 i → N.mode i = .sequential ∨ (pend.map Prod.fst).Nodup := by
    intro i pend rest brk err found hp ho
    rcases ho with ho | ho
    · exact .inl ho
    · have := hd.phase i; rw [hp] at this; exact .inr (this.1 ho)
  cases hs with
  | pollEnd h hs =>
    refine outInv_upd' hh s.fails ?_
    intro O hO
    rw [h] at hO ⊢
    simp only [Ok, if_true, SrcOk, hs, List.append_nil] at hO ⊢
    obtain ⟨u, e1, e2⟩ := hO
    exact ⟨[], by rw [e1, e2]; simp, rfl⟩
  | poll c cs h hs =>
    have := outInv_upd hh (i := 0) (ph := .producing c) (st' := s.st 0) (script' := cs) s.held s.result s.fails (fun e => absurd rfl e) (by
      intro O hO
      rw [h] at hO ⊢
      simp only [Ok, if_true, SrcOk, hs] at hO ⊢
      obtain ⟨u, e1, e2⟩ := hO
      exact ⟨[], ⟨u, e1, by simp [e2]⟩, rfl⟩)
    have he : upd s.st 0 (s.st 0) = s.st := by funext j; rw [upd_apply]; split <;> rename_i e <;> simp [e]
    rw [he] at this
    exact this
  | push k p pend rest brk err found v h hsl hp hk ha hm =>
    refine ⟨?_, ?_⟩
    · intro k' hk'
      by_cases e : k' = k
      · subst e; exact hm
      · simp only [upd_ne _ _ e] at hk'; exact h1 k' hk'
    · intro i
      obtain ⟨O, hok, hrel⟩ := h2 i
      refine ⟨O, ?_, ?_⟩
      · by_cases e : i = N.src k
        · subst e
          simp only [upd_self]
          rw [h] at hok
          revert hok
          unfold Ok
          cases brk <;> split <;> exact id
        · simp only [upd_ne _ _ e]; exact hok
      · intro k' hk' hs'
        have := hrel k' hk' hs'
        have hsent : sentOn N { s with phase := upd s.phase (N.src k) (.sending (pend.eraseIdx p) rest brk err found), slot := upd s.slot k (some v) } k' =
            sentOn N s k' ++ (if k = k' then [v] else []) := by
          simp only [sentOn]
          by_cases e : k' = k
          · subst e; simp [hsl]
          · have e' : k ≠ k' := fun x => e x.symm
            simp [upd_ne _ _ e, e']
        rw [hsent]
        by_cases e : i = N.src k
        · subst e
          simp only [upd_self]
          rw [h] at this
          refine this.trans ?_
          rw [List.append_assoc]
          refine Rel.append (Rel.of_eq rfl) ?_
          simp only [todo, onChan_append]
          rw [← List.append_assoc]
          exact (rel_erase hp ha (ord _ _ _ _ _ _ h) k').append (Rel.of_eq rfl)
        · have e' : k ≠ k' := by intro x; subst x; exact e hs'.symm
          simp only [upd_ne _ _ e, e', if_false, List.append_nil]
          exact this
  | direct k p pend rest brk err found v h hdst hp hk ha hm =>
    have hne : N.dst k ≠ N.src k := by have := (hN.fwd k hk).1; omega
    have hd0 : N.dst k ≠ 0 := by have := (hN.fwd k hk).1; omega
    have hslot : s.slot k = none := by
      cases hs : s.slot k with
      | none => rfl
      | some w => have := h1 k (by rw [hs]; intro h; cases h); rw [hm] at this; cases this
    refine ⟨h1, ?_⟩
    intro i
    obtain ⟨O, hok, hrel⟩ := h2 i
    refine ⟨O, ?_, ?_⟩
    · by_cases e' : i = N.dst k
      · subst e'
        simp only [upd_self]
        unfold Ok at hok ⊢
        rw [hdst] at hok
        simp only [hd0, if_false, NodeOk] at hok ⊢
        exact ⟨(s.got (N.dst k)).map Prod.snd, by simp, hok⟩
      · simp only [upd_ne _ _ e']
        by_cases e : i = N.src k
        · subst e
          simp only [upd_self]
          rw [h] at hok
          revert hok
          unfold Ok
          simp only [upd_ne _ _ e']
          cases brk <;> split <;> exact id
        · simp only [upd_ne _ _ e]
          unfold Ok at hok ⊢
          simp only [upd_ne _ _ e']
          exact hok
    · intro k' hk' hs'
      have := hrel k' hk' hs'
      have hsent : ∀ ph, sentOn N { s with phase := ph, got := upd s.got (N.dst k) (s.got (N.dst k) ++ [(k, v)]) } k' =
          sentOn N s k' ++ (if k = k' then [v] else []) := by
        intro ph
        simp only [sentOn]
        by_cases e : N.dst k' = N.dst k
        · rw [e, upd_self, onChan_append, onChan_cons]
          by_cases e2 : k = k'
          · subst e2; simp [hslot]
          · simp [e2]
        · have e2 : k ≠ k' := by intro x; subst x; exact e rfl
          simp [upd_ne _ _ e, e2]
      rw [hsent]
      by_cases e : i = N.src k
      · subst e
        have e' : N.src k ≠ N.dst k := fun x => hne x.symm
        simp only [upd_ne _ _ e', upd_self]
        rw [h] at this
        refine this.trans ?_
        rw [List.append_assoc]
        refine Rel.append (Rel.of_eq rfl) ?_
        simp only [todo, onChan_append]
        rw [← List.append_assoc]
        exact (rel_erase hp ha (ord _ _ _ _ _ _ h) k').append (Rel.of_eq rfl)
      · have e2 : k ≠ k' := by intro x; subst x; exact e hs'.symm
        by_cases e' : i = N.dst k
        · subst e'
          simp only [upd_self, e2, if_false, List.append_nil, todo]
          rw [hdst] at this
          exact this
        · simp only [upd_ne _ _ e', upd_ne _ _ e, e2, if_false, List.append_nil]
          exact this
  | pull k v h hsl hk =>
    have hd0 : N.dst k ≠ 0 := by have := (hN.fwd k hk).1; omega
    refine ⟨?_, ?_⟩
    · intro k' hk'
      by_cases e : k' = k
      · subst e; simp at hk'
      · simp only [upd_ne _ _ e] at hk'; exact h1 k' hk'
    · intro i
      obtain ⟨O, hok, hrel⟩ := h2 i
      refine ⟨O, ?_, ?_⟩
      · by_cases e' : i = N.dst k
        · subst e'
          simp only [upd_self]
          unfold Ok at hok ⊢
          rw [h] at hok
          simp only [hd0, if_false, NodeOk] at hok ⊢
          exact ⟨(s.got (N.dst k)).map Prod.snd, by simp, hok⟩
        · simp only [upd_ne _ _ e']
          unfold Ok at hok ⊢
          simp only [upd_ne _ _ e']
          exact hok
      · intro k' hk' hs'
        have := hrel k' hk' hs'
        have hsent : ∀ ph, sentOn N { s with phase := ph, slot := upd s.slot k none, got := upd s.got (N.dst k) (s.got (N.dst k) ++ [(k, v)]) } k' = sentOn N s k' := by
          intro ph
          simp only [sentOn]
          by_cases e2 : k' = k
          · subst e2; simp [hsl, onChan_cons]
          · have e3 : k ≠ k' := fun x => e2 x.symm
            rw [upd_ne _ _ e2]
            by_cases e : N.dst k' = N.dst k
            · rw [e, upd_self, onChan_append, onChan_cons]; simp [e3]
            · rw [upd_ne _ _ e]
        rw [hsent]
        by_cases e' : i = N.dst k
        · subst e'
          simp only [upd_self, todo]
          rw [h] at this
          exact this
        · simp only [upd_ne _ _ e']
          exact this
  | closed j h h0 hj hc =>
    refine outInv_upd' hh s.fails ?_
    intro O hO
    rw [h] at hO ⊢
    have : j ≠ 0 := by omega
    simp only [Ok, this, if_false, NodeOk] at hO ⊢
    exact ⟨[], by simpa using hO, rfl⟩
  | callSome i v hi h =>
    refine outInv_upd hh (i := i) s.held s.result _ (fun _ => rfl) ?_
    intro O hO
    rw [h] at hO ⊢
    have ho := hF.process i (s.st i) v
    unfold Ok at hO ⊢
    by_cases h0 : i = 0
    · simp only [h0, if_true, SrcOk] at hO
    · simp only [h0, if_false, NodeOk, afterCall, ho] at hO ⊢
      obtain ⟨vs, e1, e2⟩ := hO
      refine ⟨((N.fn i).process (s.st i) v).2.batches.flatten, ?_, ?_⟩
      · rw [e1, calls_snoc, e2]
      · simp only [todo, List.nil_append, head_append_tail_flatten]
  | callSrc hi h =>
    refine outInv_upd' hh s.fails ?_
    intro O hO
    rw [h] at hO ⊢
    simp only [Ok, if_true, SrcOk] at hO ⊢
    exact ⟨[], by simpa using hO, rfl⟩
  | callEnd i hi h0 h =>
    refine outInv_upd hh (i := i) s.held s.result _ (fun _ => rfl) ?_
    intro O hO
    rw [h] at hO ⊢
    have ho := hF.finish i (s.st i)
    have he : afterEnd ((N.fn i).finish (s.st i)).2 = .sending (((N.fn i).finish (s.st i)).2.batches.headD []) [] true false [] := by
      unfold afterEnd
      split
      · rename_i e he; exact absurd he (ho e)
      · rfl
    unfold Ok at hO ⊢
    rw [he]
    simp only [h0, if_false, NodeOk] at hO ⊢
    refine ⟨((N.fn i).finish (s.st i)).2.batches.flatten, ?_, ?_⟩
    · simp only [everything, hO]
    · simp only [todo, List.nil_append, List.flatten_nil, List.append_nil, head_of_short (hE i (s.st i))]
  | callProd i c hi h =>
    refine outInv_upd' hh _ ?_
    intro O hO
    have ho := hnf.calm i; rw [h] at ho
    simp only [calm] at ho
    rw [h] at hO ⊢
    unfold Ok at hO ⊢
    by_cases h0 : i = 0
    · simp only [h0, if_true, SrcOk, afterCall, ho] at hO ⊢
      obtain ⟨u, e1, e2⟩ := hO
      refine ⟨c.batches.flatten, ⟨u ++ [c], by simp [e1], by simp [e2, scriptOuts]⟩, ?_⟩
      simp only [todo, List.nil_append, head_append_tail_flatten]
    · simp only [h0, if_false, NodeOk] at hO
  | sent i rest brk err found hi h =>
    refine outInv_upd' hh _ ?_
    intro O hO
    have hc := hnf.calm i; rw [h] at hc
    obtain ⟨c1, c2⟩ := hc
    subst c1; subst c2
    rw [h] at hO ⊢
    cases brk with
    | true =>
      refine ⟨[], ?_, ?_⟩
      · revert hO
        unfold Ok
        simp only [afterSent, Bool.true_or, if_true, List.append_nil]
        split <;> exact id
      · have := ht i; rw [h] at this
        simp [todo, this rfl, afterSent]
    | false =>
      cases rest with
      | nil =>
        refine ⟨[], ?_, rfl⟩
        revert hO
        unfold Ok
        simp only [afterSent, Bool.or_self, Bool.false_eq_true, if_false, List.append_nil]
        split <;> exact id
      | cons b bs =>
        refine ⟨[], ?_, by simp [afterSent, todo]⟩
        revert hO
        unfold Ok
        simp only [afterSent, Bool.or_self, Bool.false_eq_true, if_false, List.append_nil]
        split <;> exact id
  | close i f hi h =>
    refine outInv_upd' hh _ ?_
    intro O hO
    rw [h] at hO ⊢
    refine ⟨[], ?_, rfl⟩
    revert hO
    unfold Ok
    rw [List.append_nil]
    split <;> exact id
  | forward k e h hh' hk hm => have := hnf.calm (N.dst k); rw [h] at this; exact this.elim
  | errHeld k p e ph hk hm hh' hr => rw [hnf.held k] at hh'; cases hh'
  | errDirect k p e ph hk hm h hr => have := hnf.calm (N.dst k); rw [h] at this; exact this.elim
  | errNil i p ph hi hn hr =>
    obtain ⟨hw, e⟩ := nf_nil hnf hn hr
    subst e
    refine outInv_upd' hh _ ?_
    intro O hO
    rw [hw] at hO ⊢
    refine ⟨[], ?_, rfl⟩
    revert hO
    unfold Ok
    rw [List.append_nil]
    split <;> exact id
  | waitErr e hres h => have := hnf.calm 0; rw [h] at this; exact this.elim
  | waitNil hres h => exact ⟨h1, h2⟩

end Fpki.Pipe
