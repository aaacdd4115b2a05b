import Verif.Model.JournalFile
import Mathlib.Data.List.Induction

/-! # Lemmas for `Verif.Props.JournalFile` -/
namespace Fpki.JournalFile
open Fpki.Ingest

variable {J : Type}

theorem run_append (C : Codec J) (s : State J) (a b : List (Act J)) :
    run C s (a ++ b) = (run C s a).bind (fun s' => run C s' b) := by
  induction a generalizing s with
  | nil => rfl
  | cons x xs ih =>
    simp only [List.cons_append, run]
    cases exec C s x with
    | none => rfl
    | some s' => exact ih s'

/-- Induction over runs with access to the acts done so far. -/
theorem run_induct {C : Codec J} {s : State J} {P : List (Act J) → State J → Prop} (h0 : P [] s)
    (hs : ∀ acts s1 a s2, run C s acts = some s1 → P acts s1 → exec C s1 a = some s2 → P (acts ++ [a]) s2) :
    ∀ acts s', run C s acts = some s' → P acts s' := by
  intro acts
  induction acts using List.reverseRecOn with
  | nil => intro s' h; cases h; exact h0
  | append_singleton xs x ih =>
    intro s' h
    rw [run_append] at h
    cases h1 : run C s xs with
    | none => rw [h1] at h; cases h
    | some s1 =>
      rw [h1] at h
      simp only [Option.bind, run] at h
      cases h2 : exec C s1 x with
      | none => rw [h2] at h; cases h
      | some s2 => rw [h2] at h; cases h; exact hs xs s1 x s' h1 (ih s1 h1) h2

/-! ## Directory -/

theorem dir_push (f : Fs) (o : DirOp) : (f.push o).dir = o.apply f.dir := by
  simp [Fs.dir, Fs.push, List.foldl_append]

theorem dirAt_push_le (f : Fs) (o : DirOp) (k : Nat) (h : k ≤ f.log.length) : (f.push o).dirAt k = f.dirAt k := by
  simp [Fs.dirAt, Fs.push, List.take_append_of_le_length h]

theorem dirAt_push_gt (f : Fs) (o : DirOp) (k : Nat) (h : f.log.length < k) : (f.push o).dirAt k = o.apply f.dir := by
  have : (f.log ++ [o]).take k = f.log ++ [o] := List.take_of_length_le (by simp; omega)
  simp only [Fs.dirAt, Fs.push, this, Fs.dir, List.foldl_append]
  rfl

theorem dirAt_ge (f : Fs) (k : Nat) (h : f.log.length ≤ k) : f.dirAt k = f.dir := by
  simp [Fs.dirAt, Fs.dir, List.take_of_length_le h]

theorem dirAt_take (f : Fs) (k m : Nat) (junk : Nat → Data) : (f.crash k junk).dirAt m = f.dirAt (min m k) := by
  simp [Fs.dirAt, Fs.crash, List.take_take]

theorem dir_crash (f : Fs) (k : Nat) (junk : Nat → Data) : (f.crash k junk).dir = f.dirAt k := by
  simp [Fs.dirAt, Fs.dir, Fs.crash]

theorem tempName_ne (base : Name) (r : Nat) : tempName base r ≠ base := by
  intro h
  have := congrArg List.length h
  simp [tempName] at this

/-! ## The invariant -/

/-- The temporary file of a call in progress. -/
def Pc.temp : Pc → Option (Name × Nat)
  | .idle => none
  | .creating => none
  | .writing t i _ => some (t, i)
  | .closing t i => some (t, i)
  | .renaming t i => some (t, i)
  | .cleaning t i => some (t, i)

/-- Files the directory ever named as the journal are synced and hold the bytes of one of `H`. -/
structure Inv (C : Codec J) (H : Data → Prop) (s : State J) : Prop where
  journal : ∀ k i, s.fs.dirAt k s.base = some i → s.fs.synced i = true ∧ H (s.fs.data i)
  old : ∀ k n i, s.fs.dirAt k n = some i → i < s.fs.next
  temp : ∀ p x t i, s.procs p = some x → x.pc.temp = some (t, i) →
    t ≠ s.base ∧ s.fs.dir t = some i ∧ i < s.fs.next ∧ ∀ k, s.fs.dirAt k s.base ≠ some i
  one : ∀ p q x y t i t' i', s.procs p = some x → s.procs q = some y → x.pc.temp = some (t, i) → y.pc.temp = some (t', i') → p ≠ q →
    t ≠ t' ∧ i ≠ i'
  part : ∀ p x t i rest, s.procs p = some x → x.pc = .writing t i rest → s.fs.data i ++ rest = C.enc x.mem
  full : ∀ p x t i, s.procs p = some x → (x.pc = .closing t i ∨ x.pc = .renaming t i) → s.fs.synced i = true ∧ s.fs.data i = C.enc x.mem
  mem : ∀ p x, s.procs p = some x → x.pc ≠ .idle → H (C.enc x.mem)

theorem Inv.mono {C : Codec J} {H H' : Data → Prop} {s : State J} (h : Inv C H s) (hH : ∀ b, H b → H' b) : Inv C H' s :=
  { h with journal := fun k i hi => ⟨(h.journal k i hi).1, hH _ (h.journal k i hi).2⟩
           mem := fun p x hp hx => hH _ (h.mem p x hp hx) }

theorem setProc_self (s : State J) (p : Nat) (x : Option (Proc J)) : (s.setProc p x).procs p = x := by simp [State.setProc]
theorem setProc_other (s : State J) (p q : Nat) (x : Option (Proc J)) (h : q ≠ p) : (s.setProc p x).procs q = s.procs q := by
  simp [State.setProc, h]

/-- A process changes to a state with the same temporary file, and all facts about it stay true. -/
theorem Inv.setProc {C : Codec J} {H : Data → Prop} {s : State J} (h : Inv C H s) (p : Nat) (x' : Option (Proc J))
    (htemp : ∀ y, x' = some y → ∀ t i, y.pc.temp = some (t, i) → ∃ x, s.procs p = some x ∧ x.pc.temp = some (t, i))
    (hpart : ∀ y, x' = some y → ∀ t i rest, y.pc = .writing t i rest → s.fs.data i ++ rest = C.enc y.mem)
    (hfull : ∀ y, x' = some y → ∀ t i, (y.pc = .closing t i ∨ y.pc = .renaming t i) → s.fs.synced i = true ∧ s.fs.data i = C.enc y.mem)
    (hmem : ∀ y, x' = some y → y.pc ≠ .idle → H (C.enc y.mem)) :
    Inv C H (s.setProc p x') where
  journal := h.journal
  old := h.old
  temp := by
    intro q y t i hq ht
    by_cases hqp : q = p
    · subst hqp
      rw [setProc_self] at hq
      obtain ⟨x, hx, hxt⟩ := htemp y hq t i ht
      exact h.temp q x t i hx hxt
    · rw [setProc_other _ _ _ _ hqp] at hq
      exact h.temp q y t i hq ht
  one := by
    intro q r y z t i t' i' hq hr hy hz hne
    have key : ∀ q y t i, (s.setProc p x').procs q = some y → y.pc.temp = some (t, i) → ∃ x, s.procs q = some x ∧ x.pc.temp = some (t, i) := by
      intro q y t i hq ht
      by_cases hqp : q = p
      · subst hqp
        rw [setProc_self] at hq
        exact htemp y hq t i ht
      · rw [setProc_other _ _ _ _ hqp] at hq
        exact ⟨y, hq, ht⟩
    obtain ⟨y', hy', hyt⟩ := key q y t i hq hy
    obtain ⟨z', hz', hzt⟩ := key r z t' i' hr hz
    exact h.one q r y' z' t i t' i' hy' hz' hyt hzt hne
  part := by
    intro q y t i rest hq hy
    by_cases hqp : q = p
    · subst hqp; rw [setProc_self] at hq; exact hpart y hq t i rest hy
    · rw [setProc_other _ _ _ _ hqp] at hq; exact h.part q y t i rest hq hy
  full := by
    intro q y t i hq hy
    by_cases hqp : q = p
    · subst hqp; rw [setProc_self] at hq; exact hfull y hq t i hy
    · rw [setProc_other _ _ _ _ hqp] at hq; exact h.full q y t i hq hy
  mem := by
    intro q y hq hy
    by_cases hqp : q = p
    · subst hqp; rw [setProc_self] at hq; exact hmem y hq hy
    · rw [setProc_other _ _ _ _ hqp] at hq; exact h.mem q y hq hy

/-- The bytes a call of the step wants to write. -/
def Act.bytes (C : Codec J) : Act J → Data → Prop
  | .call _ j _, b => b = C.enc j
  | _, _ => False

theorem Inv.dirAt_top {C : Codec J} {H : Data → Prop} {s : State J} (_ : Inv C H s) : s.fs.dirAt s.fs.log.length = s.fs.dir :=
  dirAt_ge _ _ (Nat.le_refl _)

theorem dirAt_push (f : Fs) (o : DirOp) (k : Nat) : (f.push o).dirAt k = f.dirAt k ∨ (f.push o).dirAt k = o.apply f.dir := by
  by_cases h : k ≤ f.log.length
  · exact .inl (dirAt_push_le f o k h)
  · exact .inr (dirAt_push_gt f o k (by omega))

theorem exec_base {C : Codec J} {s s' : State J} {a : Act J} (h : exec C s a = some s') : s'.base = s.base := by
  unfold exec at h
  split at h <;> (repeat' split at h) <;> first | (cases h; done) | (cases h; rfl)

theorem inv_step {C : Codec J} {H : Data → Prop} {s s' : State J} {a : Act J} (h : Inv C H s) (he : exec C s a = some s') :
    Inv C (fun b => H b ∨ a.bytes C b) s' := by
  cases a with
  | start p =>
    simp only [exec] at he
    split at he
    · cases he
    · split at he
      · cases he
      · cases he
        refine (h.setProc p _ ?_ ?_ ?_ ?_).mono (fun b hb => .inl hb)
        all_goals (intro y hy; cases hy; simp [Pc.temp])
  | call p j c =>
    simp only [exec] at he
    split at he
    · cases he
    · rename_i x hx
      split at he
      · rename_i hpc
        split at he
        · cases he
          refine (h.setProc p _ ?_ ?_ ?_ ?_).mono (fun b hb => .inl hb)
          all_goals (intro y hy; cases hy; simp [Pc.temp, hpc])
        · cases he
          refine (h.mono (fun b hb => .inl hb)).setProc p _ ?_ ?_ ?_ ?_
          all_goals (intro y hy; cases hy; simp [Pc.temp, Act.bytes])
      · cases he
  | createFail p =>
    simp only [exec] at he
    split at he
    · cases he
    · split at he
      · cases he
        refine (h.setProc p _ ?_ ?_ ?_ ?_).mono (fun b hb => .inl hb)
        all_goals (intro y hy; cases hy; simp [Pc.temp])
      · cases he
  | writeFail p =>
    simp only [exec] at he
    split at he
    · cases he
    · rename_i x hx
      split at he
      · rename_i t i rest hpc
        cases he
        refine (h.setProc p _ ?_ ?_ ?_ ?_).mono (fun b hb => .inl hb)
        · intro y hy; cases hy; intro t i ht; exact ⟨x, hx, by rw [hpc]; exact ht⟩
        · intro y hy; cases hy; simp
        · intro y hy; cases hy; simp
        · intro y hy; cases hy; intro _; exact h.mem p x hx (by rw [hpc]; simp)
      · cases he
  | close p ok =>
    simp only [exec] at he
    split at he
    · cases he
    · rename_i x hx
      split at he
      · rename_i t i hpc
        cases he
        refine (h.setProc p _ ?_ ?_ ?_ ?_).mono (fun b hb => .inl hb)
        · intro y hy; cases hy; intro t i ht
          refine ⟨x, hx, ?_⟩
          rw [hpc]; cases ok <;> exact ht
        · intro y hy; cases hy; cases ok <;> simp
        · intro y hy; cases hy; intro t' i' hc
          cases ok
          · simp at hc
          · simp at hc
            obtain ⟨rfl, rfl⟩ := hc
            exact h.full p x _ _ hx (.inl hpc)
        · intro y hy; cases hy; intro _; exact h.mem p x hx (by rw [hpc]; simp)
      · cases he
  | kill p =>
    simp only [exec] at he
    split at he
    · cases he
    · cases he
      refine (h.setProc p _ ?_ ?_ ?_ ?_).mono (fun b hb => .inl hb)
      all_goals (intro y hy; cases hy)
  | flush k =>
    simp only [exec] at he
    split at he
    · cases he
      exact { h with
        journal := fun k i hi => ⟨(h.journal k i hi).1, .inl (h.journal k i hi).2⟩
        mem := fun p x hp hx => .inl (h.mem p x hp hx) }
    · cases he
  | crash k junk =>
    simp only [exec] at he
    split at he
    · cases he
      refine ⟨?_, ?_, ?_, ?_, ?_, ?_, ?_⟩
      · intro m i hi
        rw [dirAt_take] at hi
        have := h.journal _ i hi
        refine ⟨rfl, .inl ?_⟩
        show H (if s.fs.synced i = true then s.fs.data i else junk i)
        rw [if_pos this.1]
        exact this.2
      · intro m n i hi
        rw [dirAt_take] at hi
        exact h.old _ n i hi
      all_goals (intro p; intros; rename_i hp; first | (cases hp; done) | skip)
      all_goals simp_all
    · cases he
  | create p r =>
    simp only [exec] at he
    split at he
    · cases he
    · rename_i x hx
      split at he
      · rename_i hc
        cases he
        have hfree : ∀ q y t i, s.procs q = some y → y.pc.temp = some (t, i) → t ≠ tempName s.base r ∧ i ≠ s.fs.next := by
          intro q y t i hq ht
          have := h.temp q y t i hq ht
          refine ⟨?_, by omega⟩
          intro he
          rw [he, hc.2] at this
          simp at this
        have hjour : ∀ k i, (s.fs.push (.create (tempName s.base r) s.fs.next)).dirAt k s.base = some i →
            ∃ k', s.fs.dirAt k' s.base = some i := by
          intro k i hi
          rcases dirAt_push s.fs (.create (tempName s.base r) s.fs.next) k with hk | hk
          · exact ⟨k, by rw [← hk]; exact hi⟩
          · rw [hk] at hi
            refine ⟨s.fs.log.length, ?_⟩
            rw [h.dirAt_top]
            simpa [DirOp.apply, (tempName_ne s.base r).symm] using hi
        have hproc : ∀ q y, (s.setProc p (some { x with pc := .writing (tempName s.base r) s.fs.next (C.enc x.mem) })).procs q = some y →
            (q = p ∧ y = { x with pc := .writing (tempName s.base r) s.fs.next (C.enc x.mem) }) ∨ (q ≠ p ∧ s.procs q = some y) := by
          intro q y hq
          by_cases hqp : q = p
          · subst hqp; rw [setProc_self] at hq; cases hq; exact .inl ⟨rfl, rfl⟩
          · rw [setProc_other _ _ _ _ hqp] at hq; exact .inr ⟨hqp, hq⟩
        refine ⟨?_, ?_, ?_, ?_, ?_, ?_, ?_⟩
        · intro k i hi
          obtain ⟨k', hk'⟩ := hjour k i hi
          have h1 := h.journal k' i hk'
          have h2 := h.old k' _ i hk'
          have h3 : i ≠ s.fs.next := by omega
          simp only [if_neg h3]
          exact ⟨h1.1, .inl h1.2⟩
        · intro k n i hi
          show i < s.fs.next + 1
          rcases dirAt_push s.fs (.create (tempName s.base r) s.fs.next) k with hk | hk
          · have hi' : s.fs.dirAt k n = some i := by rw [← hk]; exact hi
            have := h.old k n i hi'
            omega
          · have hi' := hi
            change (s.fs.push (.create (tempName s.base r) s.fs.next)).dirAt k n = some i at hi'
            rw [hk] at hi'
            simp only [DirOp.apply] at hi'
            split at hi'
            · cases hi'; omega
            · have := h.old s.fs.log.length n i (by rw [h.dirAt_top]; exact hi')
              omega
        · intro q y t i hq ht
          rcases hproc q y hq with ⟨rfl, rfl⟩ | ⟨hqp, hq⟩
          · simp only [Pc.temp, Option.some.injEq, Prod.mk.injEq] at ht
            obtain ⟨rfl, rfl⟩ := ht
            refine ⟨tempName_ne _ _, ?_, Nat.lt_succ_self _, ?_⟩
            · show (s.fs.push _).dir _ = _
              rw [dir_push]; simp [DirOp.apply]
            · intro k hk
              obtain ⟨k', hk'⟩ := hjour k _ hk
              have := h.old k' _ _ hk'
              omega
          · have h1 := h.temp q y t i hq ht
            have h2 := hfree q y t i hq ht
            refine ⟨h1.1, ?_, Nat.lt_succ_of_lt h1.2.2.1, ?_⟩
            · show (s.fs.push _).dir _ = _
              rw [dir_push]
              simp only [DirOp.apply, if_neg h2.1]
              exact h1.2.1
            · intro k hk
              obtain ⟨k', hk'⟩ := hjour k _ hk
              exact h1.2.2.2 k' hk'
        · intro q r' y z t i t' i' hq hr hy hz hne
          rcases hproc q y hq with ⟨rfl, rfl⟩ | ⟨hqp, hq'⟩
          · rcases hproc r' z hr with ⟨rfl, rfl⟩ | ⟨hrp, hr⟩
            · exact absurd rfl hne
            · simp only [Pc.temp, Option.some.injEq, Prod.mk.injEq] at hy
              obtain ⟨rfl, rfl⟩ := hy
              have := hfree r' z t' i' hr hz
              exact ⟨this.1.symm, this.2.symm⟩
          · rcases hproc r' z hr with ⟨rfl, rfl⟩ | ⟨hrp, hr⟩
            · simp only [Pc.temp, Option.some.injEq, Prod.mk.injEq] at hz
              obtain ⟨rfl, rfl⟩ := hz
              exact hfree q y t i hq' hy
            · exact h.one q r' y z t i t' i' hq' hr hy hz hne
        · intro q y t i rest hq hy
          rcases hproc q y hq with ⟨rfl, rfl⟩ | ⟨hqp, hq⟩
          · simp only [Pc.writing.injEq] at hy
            obtain ⟨rfl, rfl, rfl⟩ := hy
            simp
          · have h2 := hfree q y t i hq (by rw [hy]; rfl)
            simp only [if_neg h2.2]
            exact h.part q y t i rest hq hy
        · intro q y t i hq hy
          rcases hproc q y hq with ⟨rfl, rfl⟩ | ⟨hqp, hq⟩
          · simp at hy
          · have h2 := hfree q y t i hq (by rcases hy with hy | hy <;> rw [hy] <;> rfl)
            simp only [if_neg h2.2]
            exact h.full q y t i hq hy
        · intro q y hq hy
          rcases hproc q y hq with ⟨rfl, rfl⟩ | ⟨hqp, hq⟩
          · exact .inl (h.mem q x hx (by rw [hc.1]; simp))
          · exact .inl (h.mem q y hq hy)
      · cases he
  | chunk p n =>
    simp only [exec] at he
    split at he
    · cases he
    · rename_i x hx
      split at he
      · rename_i t i rest hpc
        cases he
        have hxt : x.pc.temp = some (t, i) := by rw [hpc]; rfl
        have hi := h.temp p x t i hx hxt
        have hother : ∀ q y t' i', s.procs q = some y → y.pc.temp = some (t', i') → q ≠ p → i' ≠ i := by
          intro q y t' i' hq hy hqp
          exact (h.one q p y x t' i' t i hq hx hy hxt hqp).2
        have hproc : ∀ q y, (s.setProc p (some { x with pc := .writing t i (rest.drop n) })).procs q = some y →
            (q = p ∧ y = { x with pc := .writing t i (rest.drop n) }) ∨ (q ≠ p ∧ s.procs q = some y) := by
          intro q y hq
          by_cases hqp : q = p
          · subst hqp; rw [setProc_self] at hq; cases hq; exact .inl ⟨rfl, rfl⟩
          · rw [setProc_other _ _ _ _ hqp] at hq; exact .inr ⟨hqp, hq⟩
        refine ⟨?_, h.old, ?_, ?_, ?_, ?_, ?_⟩
        · intro k m hm
          have hne : m ≠ i := fun e => hi.2.2.2 k (by rw [← e]; exact hm)
          simp only [if_neg hne]
          exact ⟨(h.journal k m hm).1, .inl (h.journal k m hm).2⟩
        · intro q y t' i' hq hy
          rcases hproc q y hq with ⟨rfl, rfl⟩ | ⟨hqp, hq⟩
          · exact h.temp q x t' i' hx (by rw [hpc]; exact hy)
          · exact h.temp q y t' i' hq hy
        · intro q r y z t1 i1 t2 i2 hq hr hy hz hne
          have key : ∀ q y t1 i1, (s.setProc p (some { x with pc := .writing t i (rest.drop n) })).procs q = some y → y.pc.temp = some (t1, i1) →
              ∃ y', s.procs q = some y' ∧ y'.pc.temp = some (t1, i1) := by
            intro q y t1 i1 hq hy
            rcases hproc q y hq with ⟨rfl, rfl⟩ | ⟨hqp, hq⟩
            · exact ⟨x, hx, by rw [hpc]; exact hy⟩
            · exact ⟨y, hq, hy⟩
          obtain ⟨y', h1, h2⟩ := key q y t1 i1 hq hy
          obtain ⟨z', h3, h4⟩ := key r z t2 i2 hr hz
          exact h.one q r y' z' t1 i1 t2 i2 h1 h3 h2 h4 hne
        · intro q y t' i' rest' hq hy
          rcases hproc q y hq with ⟨rfl, rfl⟩ | ⟨hqp, hq⟩
          · simp only [Pc.writing.injEq] at hy
            obtain ⟨rfl, rfl, rfl⟩ := hy
            simp only [if_true, List.append_assoc, List.take_append_drop]
            exact h.part q x _ _ _ hx hpc
          · have := hother q y t' i' hq (by rw [hy]; rfl) hqp
            simp only [if_neg this]
            exact h.part q y t' i' rest' hq hy
        · intro q y t' i' hq hy
          rcases hproc q y hq with ⟨rfl, rfl⟩ | ⟨hqp, hq⟩
          · simp at hy
          · have := hother q y t' i' hq (by rcases hy with hy | hy <;> rw [hy] <;> rfl) hqp
            simp only [if_neg this]
            exact h.full q y t' i' hq hy
        · intro q y hq hy
          rcases hproc q y hq with ⟨rfl, rfl⟩ | ⟨hqp, hq⟩
          · exact .inl (h.mem q x hx (by rw [hpc]; simp))
          · exact .inl (h.mem q y hq hy)
      · cases he
  | sync p ok =>
    simp only [exec] at he
    split at he
    · cases he
    · rename_i x hx
      split at he
      · rename_i t i hpc
        split at he
        · cases he
          have hxt : x.pc.temp = some (t, i) := by rw [hpc]; rfl
          have h1 : Inv C (fun b => H b ∨ (Act.sync p ok : Act J).bytes C b) { s with fs := { s.fs with synced := fun m => if m = i then true else s.fs.synced m } } :=
            { h with
              journal := fun k m hm => ⟨by
                show (if m = i then true else s.fs.synced m) = true
                rw [(h.journal k m hm).1]; simp, .inl (h.journal k m hm).2⟩
              full := fun q y t' i' hq hy => ⟨by
                show (if i' = i then true else s.fs.synced i') = true
                rw [(h.full q y t' i' hq hy).1]; simp, (h.full q y t' i' hq hy).2⟩
              mem := fun q y hq hy => .inl (h.mem q y hq hy) }
          have h2 := h1.setProc p (some { x with pc := .closing t i }) (by
              intro y hy; cases hy; intro t' i' ht; exact ⟨x, hx, by rw [hpc]; exact ht⟩) (by
              intro y hy; cases hy; simp) (by
              intro y hy; cases hy; intro t' i' ht
              simp at ht
              obtain ⟨rfl, rfl⟩ := ht
              refine ⟨by simp, ?_⟩
              have := h.part p x _ _ _ hx hpc
              simpa using this) (by
              intro y hy; cases hy; intro _; exact .inl (h.mem p x hx (by rw [hpc]; simp)))
          exact h2
        · cases he
          refine (h.setProc p _ ?_ ?_ ?_ ?_).mono (fun b hb => .inl hb)
          · intro y hy; cases hy; intro t i ht; exact ⟨x, hx, by rw [hpc]; exact ht⟩
          · intro y hy; cases hy; simp
          · intro y hy; cases hy; simp
          · intro y hy; cases hy; intro _; exact h.mem p x hx (by rw [hpc]; simp)
      · cases he
  | rename p ok =>
    simp only [exec] at he
    split at he
    · cases he
    · rename_i x hx
      split at he
      · rename_i t i hpc
        split at he
        · cases he
          have hxt : x.pc.temp = some (t, i) := by rw [hpc]; rfl
          have hi := h.temp p x t i hx hxt
          have hf := h.full p x t i hx (.inr hpc)
          have hother : ∀ q y t' i', s.procs q = some y → y.pc.temp = some (t', i') → q ≠ p → t' ≠ t ∧ i' ≠ i :=
            fun q y t' i' hq hy hqp => h.one q p y x t' i' t i hq hx hy hxt hqp
          have hproc : ∀ q y, (s.setProc p (some { x with pc := .idle, result := some true, closed := x.isClose })).procs q = some y →
              (q = p ∧ y.pc = .idle) ∨ (q ≠ p ∧ s.procs q = some y) := by
            intro q y hq
            by_cases hqp : q = p
            · subst hqp; rw [setProc_self] at hq; cases hq; exact .inl ⟨rfl, rfl⟩
            · rw [setProc_other _ _ _ _ hqp] at hq; exact .inr ⟨hqp, hq⟩
          have hjour : ∀ k m, (s.fs.push (.rename t s.base)).dirAt k s.base = some m → (∃ k', s.fs.dirAt k' s.base = some m) ∨ m = i := by
            intro k m hm
            rcases dirAt_push s.fs (.rename t s.base) k with hk | hk
            · exact .inl ⟨k, by rw [← hk]; exact hm⟩
            · rw [hk] at hm
              simp only [DirOp.apply, if_true] at hm
              rw [hi.2.1] at hm
              cases hm
              exact .inr rfl
          refine ⟨?_, ?_, ?_, ?_, ?_, ?_, ?_⟩
          · intro k m hm
            rcases hjour k m hm with ⟨k', hk'⟩ | rfl
            · exact ⟨(h.journal k' m hk').1, .inl (h.journal k' m hk').2⟩
            · exact ⟨hf.1, .inl (by
                show H (s.fs.data m)
                rw [hf.2]; exact h.mem p x hx (by rw [hpc]; simp))⟩
          · intro k n m hm
            show m < s.fs.next
            rcases dirAt_push s.fs (.rename t s.base) k with hk | hk
            · exact h.old k n m (by rw [← hk]; exact hm)
            · have hm' := hm
              change (s.fs.push (.rename t s.base)).dirAt k n = some m at hm'
              rw [hk] at hm'
              simp only [DirOp.apply] at hm'
              split at hm'
              · exact h.old s.fs.log.length t m (by rw [h.dirAt_top]; exact hm')
              · split at hm'
                · cases hm'
                · exact h.old s.fs.log.length n m (by rw [h.dirAt_top]; exact hm')
          · intro q y t' i' hq hy
            rcases hproc q y hq with ⟨rfl, hpi⟩ | ⟨hqp, hq⟩
            · rw [hpi] at hy; cases hy
            · have h1 := h.temp q y t' i' hq hy
              have h2 := hother q y t' i' hq hy hqp
              refine ⟨h1.1, ?_, h1.2.2.1, ?_⟩
              · show (s.fs.push _).dir _ = _
                rw [dir_push]
                simp only [DirOp.apply, if_neg h1.1, if_neg h2.1]
                exact h1.2.1
              · intro k hk
                rcases hjour k _ hk with ⟨k', hk'⟩ | rfl
                · exact h1.2.2.2 k' hk'
                · exact h2.2 rfl
          · intro q r y z t1 i1 t2 i2 hq hr hy hz hne
            rcases hproc q y hq with ⟨rfl, hpi⟩ | ⟨hqp, hq⟩
            · rw [hpi] at hy; cases hy
            · rcases hproc r z hr with ⟨rfl, hpi⟩ | ⟨hrp, hr⟩
              · rw [hpi] at hz; cases hz
              · exact h.one q r y z t1 i1 t2 i2 hq hr hy hz hne
          · intro q y t' i' rest hq hy
            rcases hproc q y hq with ⟨rfl, hpi⟩ | ⟨hqp, hq⟩
            · rw [hpi] at hy; cases hy
            · exact h.part q y t' i' rest hq hy
          · intro q y t' i' hq hy
            rcases hproc q y hq with ⟨rfl, hpi⟩ | ⟨hqp, hq⟩
            · rw [hpi] at hy; rcases hy with hy | hy <;> cases hy
            · exact h.full q y t' i' hq hy
          · intro q y hq hy
            rcases hproc q y hq with ⟨rfl, hpi⟩ | ⟨hqp, hq⟩
            · exact absurd hpi hy
            · exact .inl (h.mem q y hq hy)
        · cases he
          refine (h.setProc p _ ?_ ?_ ?_ ?_).mono (fun b hb => .inl hb)
          · intro y hy; cases hy; intro t i ht; exact ⟨x, hx, by rw [hpc]; exact ht⟩
          · intro y hy; cases hy; simp
          · intro y hy; cases hy; simp
          · intro y hy; cases hy; intro _; exact h.mem p x hx (by rw [hpc]; simp)
      · cases he
  | remove p ok =>
    simp only [exec] at he
    split at he
    · cases he
    · rename_i x hx
      split at he
      · rename_i t i hpc
        cases he
        have hidle : Inv C (fun b => H b ∨ (Act.remove p ok : Act J).bytes C b) (s.setProc p (some { x with pc := .idle, result := some false })) := by
          refine (h.setProc p _ ?_ ?_ ?_ ?_).mono (fun b hb => .inl hb)
          all_goals (intro y hy; cases hy; simp [Pc.temp])
        cases ok with
        | false => exact hidle
        | true =>
          have hxt : x.pc.temp = some (t, i) := by rw [hpc]; rfl
          have hi := h.temp p x t i hx hxt
          have hother : ∀ q y t' i', (s.setProc p (some { x with pc := .idle, result := some false })).procs q = some y → y.pc.temp = some (t', i') → t' ≠ t := by
            intro q y t' i' hq hy
            by_cases hqp : q = p
            · subst hqp; rw [setProc_self] at hq; cases hq; cases hy
            · rw [setProc_other _ _ _ _ hqp] at hq
              exact (h.one q p y x t' i' t i hq hx hy hxt hqp).1
          have hj : ∀ k n m, (s.fs.push (.remove t)).dirAt k n = some m → ∃ k', s.fs.dirAt k' n = some m := by
            intro k n m hm
            rcases dirAt_push s.fs (.remove t) k with hk | hk
            · exact ⟨k, by rw [← hk]; exact hm⟩
            · rw [hk] at hm
              simp only [DirOp.apply] at hm
              split at hm
              · cases hm
              · exact ⟨s.fs.log.length, by rw [h.dirAt_top]; exact hm⟩
          exact { hidle with
            journal := fun k m hm => by obtain ⟨k', hk'⟩ := hj k _ m hm; exact hidle.journal k' m hk'
            old := fun k n m hm => by obtain ⟨k', hk'⟩ := hj k n m hm; exact hidle.old k' n m hk'
            temp := fun q y t' i' hq hy => by
              have h1 := hidle.temp q y t' i' hq hy
              refine ⟨h1.1, ?_, h1.2.2.1, fun k hk => ?_⟩
              · show (s.fs.push _).dir _ = _
                rw [dir_push]
                simp only [DirOp.apply, if_neg (hother q y t' i' hq hy)]
                exact h1.2.1
              · obtain ⟨k', hk'⟩ := hj k _ _ hk
                exact h1.2.2.2 k' hk' }
      · cases he

end Fpki.JournalFile
