import Verif.Lemmas.JournalFile
import Verif.Lemmas.Ingest

/-!
# Property C90: the journal file is replaced atomically

For any number of processes, any interleaving of their system calls, any failures, and any crashes.

Specification vocabulary:
* `s.journal` — the bytes of the file with the name of the journal (`none`: no such file);
* `load C s` — what a process that starts now finds: the decoded journal (`none`: `NewJournal` returns an error);
* `Asked acts j` — some call of the run asked to save the journal `j`;
* `Sane d next` — the directory names only existing files;
* `Alone` — processes run one after the other, and every saved journal contains what was in memory before (`le`).
-/
namespace Fpki.JournalFile
open Fpki.Ingest

variable {J : Type}

/-- Some call of the run asked to save `j`. -/
def Asked (acts : List (Act J)) (j : J) : Prop := ∃ p c, Act.call p j c ∈ acts

/-- The directory names only files that exist. -/
def Sane (d : Dir) (next : Nat) : Prop := ∀ n i, d n = some i → i < next

theorem boot_dirAt (base : Name) (d : Dir) (data : Nat → Data) (next k : Nat) :
    (boot base d data next : State J).fs.dirAt k = d := by simp [boot, Fs.dirAt]

theorem boot_inv (C : Codec J) (base : Name) (d : Dir) (data : Nat → Data) (next : Nat) (hd : Sane d next) (H : Data → Prop)
    (hH : ∀ b, (boot base d data next : State J).journal = some b → H b) : Inv C H (boot base d data next) where
  journal := by
    intro k i hi
    rw [boot_dirAt] at hi
    refine ⟨rfl, hH _ ?_⟩
    have : (boot base d data next : State J).fs.dir = d := by simp [boot, Fs.dir]
    simp only [State.journal, this]
    show (d base).map data = some (data i)
    rw [show d base = some i from hi]
    rfl
  old := by intro k n i hi; rw [boot_dirAt] at hi; exact hd n i hi
  temp := by intro p x t i h; cases h
  one := by intro p q x y t i t' i' h; cases h
  part := by intro p x t i r h; cases h
  full := by intro p x t i h; cases h
  mem := by intro p x h; cases h

theorem bytes_asked {C : Codec J} {a : Act J} {b : Data} (h : a.bytes C b) : ∃ p j c, a = .call p j c ∧ b = C.enc j := by
  cases a with
  | call p j c => exact ⟨p, j, c, rfl, h⟩
  | _ => cases h

theorem boot_base (base : Name) (d : Dir) (data : Nat → Data) (next : Nat) {C : Codec J} {acts : List (Act J)} {s : State J}
    (h : run C (boot base d data next) acts = some s) : s.base = base :=
  run_induct (P := fun _ s => s.base = base) rfl (fun _ _ _ _ _ ih he => (exec_base he).trans ih) acts s h

/-- The invariant along runs. -/
theorem run_inv (C : Codec J) (base : Name) (d : Dir) (data : Nat → Data) (next : Nat) (hd : Sane d next) {acts : List (Act J)} {s : State J}
    (h : run C (boot base d data next) acts = some s) :
    Inv C (fun b => (boot base d data next : State J).journal = some b ∨ ∃ j, Asked acts j ∧ b = C.enc j) s := by
  refine run_induct (P := fun acts s => Inv C (fun b => (boot base d data next : State J).journal = some b ∨ ∃ j, Asked acts j ∧ b = C.enc j) s)
    ?_ ?_ acts s h
  · exact boot_inv C base d data next hd _ (fun b hb => .inl hb)
  · intro acts s1 a s2 _ ih he
    refine (inv_step ih he).mono ?_
    rintro b ((hb | ⟨j, ⟨p, c, hm⟩, hb⟩) | hb)
    · exact .inl hb
    · exact .inr ⟨j, ⟨p, c, List.mem_append_left _ hm⟩, hb⟩
    · obtain ⟨p, j, c, rfl, hb⟩ := bytes_asked hb
      exact .inr ⟨j, ⟨p, c, by simp⟩, hb⟩

/-- Operations never take the name of the journal away. -/
theorem step_keeps {C : Codec J} {H : Data → Prop} {s s' : State J} {a : Act J} (hi : Inv C H s) (he : exec C s a = some s') :
    ∀ k, ∃ k', s'.fs.dirAt k s.base = s.fs.dirAt k' s.base ∨ ∃ i, s'.fs.dirAt k s.base = some i := by
  intro k
  have push : ∀ (o : DirOp) k, (∀ n, o = .remove n → n ≠ s.base) → (∀ t u, o = .rename t u → s.fs.dir t ≠ none ∧ t ≠ s.base) →
      ∃ k', (s.fs.push o).dirAt k s.base = s.fs.dirAt k' s.base ∨ ∃ i, (s.fs.push o).dirAt k s.base = some i := by
    intro o k h1 h2
    rcases dirAt_push s.fs o k with hk | hk
    · exact ⟨k, .inl (by rw [hk])⟩
    · refine ⟨s.fs.log.length, ?_⟩
      rw [hk, hi.dirAt_top]
      cases o with
      | create n i =>
        by_cases hn : s.base = n
        · exact .inr ⟨i, by simp [DirOp.apply, hn]⟩
        · exact .inl (by simp [DirOp.apply, hn])
      | rename t u =>
        obtain ⟨h3, h4⟩ := h2 t u rfl
        by_cases hn : s.base = u
        · cases hd : s.fs.dir t with
          | none => exact absurd hd h3
          | some i => exact .inr ⟨i, by simp [DirOp.apply, hn, hd]⟩
        · exact .inl (by simp [DirOp.apply, hn, Ne.symm h4])
      | remove n => exact .inl (by simp [DirOp.apply, Ne.symm (h1 n rfl)])
  cases a with
  | create p r =>
    simp only [exec] at he
    (repeat' split at he) <;> cases he
    rename_i x hx hc
    exact push (.create _ _) k (by intro n h; cases h) (by intro t u h; cases h)
  | rename p ok =>
    simp only [exec] at he
    (repeat' split at he) <;> cases he
    · rename_i x hx _ t i hpc _
      have := hi.temp p x t i hx (by rw [hpc]; rfl)
      exact push (.rename t s.base) k (by intro n h; cases h) (by intro t' u h; cases h; exact ⟨by rw [this.2.1]; simp, this.1⟩)
    · exact ⟨k, .inl rfl⟩
  | remove p ok =>
    simp only [exec] at he
    (repeat' split at he) <;> cases he
    · rename_i x hx _ t i hpc _
      have := hi.temp p x t i hx (by rw [hpc]; rfl)
      exact push (.remove t) k (by intro n h; cases h; exact this.1) (by intro t u h; cases h)
    · exact ⟨k, .inl rfl⟩
  | crash m junk =>
    simp only [exec] at he
    (repeat' split at he) <;> cases he
    exact ⟨min k m, .inl (by show (s.fs.crash m junk).dirAt k s.base = _; rw [dirAt_take])⟩
  | _ =>
    simp only [exec] at he
    (repeat' split at he) <;> cases he <;> exact ⟨k, .inl rfl⟩

/-- C90, never torn. Whatever the processes do, whatever fails, and wherever processes die or the machine crashes: the journal is the one
that was there at the start, or holds all the bytes of a journal that some call asked to save. It does not disappear. -/
theorem C90_complete (C : Codec J) (base : Name) (d : Dir) (data : Nat → Data) (next : Nat) (hd : Sane d next) (acts : List (Act J)) (s : State J)
    (h : run C (boot base d data next) acts = some s) :
    s.journal = (d base).map data ∨ ∃ j, Asked acts j ∧ s.journal = some (C.enc j) := by
  have hb := boot_base base d data next h
  have hinv := run_inv C base d data next hd h
  have hboot : (boot base d data next : State J).journal = (d base).map data := by simp [boot, State.journal, Fs.dir]
  have hnone : ∀ k, s.fs.dirAt k base = none → d base = none := by
    refine run_induct (P := fun acts s => ∀ k, s.fs.dirAt k base = none → d base = none) ?_ ?_ acts s h
    · intro k hk; rw [boot_dirAt] at hk; exact hk
    · intro acts s1 a s2 hr ih he k hk
      have hb1 := boot_base base d data next hr
      obtain ⟨k', h1 | ⟨i, h1⟩⟩ := step_keeps (run_inv C base d data next hd hr) he k
      · rw [hb1] at h1
        exact ih k' (by rw [← h1]; exact hk)
      · rw [hb1, hk] at h1; cases h1
  cases hj : s.fs.dir s.base with
  | none =>
    left
    have : d base = none := hnone s.fs.log.length (by rw [hinv.dirAt_top, ← hb]; exact hj)
    simp [State.journal, hj, this]
  | some i =>
    have h1 := (hinv.journal s.fs.log.length i (by rw [hinv.dirAt_top]; exact hj)).2
    have h2 : s.journal = some (s.fs.data i) := by simp [State.journal, hj]
    rw [h2, ← hboot]
    rcases h1 with h1 | ⟨j, ha, h1⟩
    · exact .inl h1.symm
    · exact .inr ⟨j, ha, by rw [h1]⟩

/-- C90, never unreadable: if JSON is read back as it was written and the file at the start (if any) is readable, then at any later time
a process that starts can read the journal. -/
theorem C90_readable (C : Codec J) (hC : ∀ j, C.dec (C.enc j) = some j) (base : Name) (d : Dir) (data : Nat → Data) (next : Nat)
    (hd : Sane d next) (h0 : ∀ i, d base = some i → C.dec (data i) ≠ none) (acts : List (Act J)) (s : State J)
    (h : run C (boot base d data next) acts = some s) : ∃ j, load C s = some j := by
  rcases C90_complete C base d data next hd acts s h with hj | ⟨j, _, hj⟩
  · cases hb : d base with
    | none => exact ⟨C.init, by simp [load, hj, hb]⟩
    | some i =>
      cases hdec : C.dec (data i) with
      | none => exact absurd hdec (h0 i hb)
      | some j => exact ⟨j, by simp [load, hj, hb, hdec]⟩
  · exact ⟨j, by simp [load, hj, hC]⟩

/-! ## One process after the other -/

/-- What a process would find after a machine crash that keeps `k` directory operations. -/
def loadAt (C : Codec J) (s : State J) (k : Nat) : Option J :=
  match s.fs.dirAt k s.base with
  | none => some C.init
  | some i => C.dec (s.fs.data i)

theorem loadAt_top (C : Codec J) (s : State J) (k : Nat) (h : s.fs.log.length ≤ k) : loadAt C s k = load C s := by
  simp only [loadAt, load, State.journal, dirAt_ge _ _ h]
  cases s.fs.dir s.base <;> rfl

theorem loadAt_congr {C : Codec J} {s s' : State J} {k k' : Nat} (h1 : s'.fs.dirAt k' s'.base = s.fs.dirAt k s.base)
    (h2 : ∀ i, s.fs.dirAt k s.base = some i → s'.fs.data i = s.fs.data i) : loadAt C s' k' = loadAt C s k := by
  simp only [loadAt, h1]
  cases h : s.fs.dirAt k s.base with
  | none => rfl
  | some i => simp only [h2 i h]

/-- What a step that is not a machine crash does to the journal. -/
theorem step_load {C : Codec J} {H : Data → Prop} {s s' : State J} {a : Act J} (hi : Inv C H s) (he : exec C s a = some s')
    (hc : ∀ k junk, a ≠ .crash k junk) :
    s.fs.log.length ≤ s'.fs.log.length ∧ s.fs.durable ≤ s'.fs.durable ∧
    (∀ k ≤ s.fs.log.length, loadAt C s' k = loadAt C s k) ∧
    (((∀ p, a ≠ .rename p true) ∧ ∀ k, s.fs.log.length < k → loadAt C s' k = load C s) ∨
      ∃ p x, a = .rename p true ∧ s.procs p = some x ∧ s'.procs p = some { x with pc := .idle, result := some true, closed := x.isClose } ∧
        ∀ k, s.fs.log.length < k → loadAt C s' k = C.dec (C.enc x.mem)) := by
  have hb := exec_base he
  have same : s'.fs.log = s.fs.log → s'.fs.dir0 = s.fs.dir0 → s.fs.durable ≤ s'.fs.durable →
      (∀ k i, s.fs.dirAt k s.base = some i → s'.fs.data i = s.fs.data i) →
      s.fs.log.length ≤ s'.fs.log.length ∧ s.fs.durable ≤ s'.fs.durable ∧ (∀ k ≤ s.fs.log.length, loadAt C s' k = loadAt C s k) ∧
      (∀ k, s.fs.log.length < k → loadAt C s' k = load C s) := by
    intro h1 h0 h2 h3
    have h4 : ∀ k, loadAt C s' k = loadAt C s k := fun k => loadAt_congr (by simp only [Fs.dirAt, h1, h0, hb]) (h3 k)
    exact ⟨by rw [h1]; exact Nat.le_refl _, h2, fun k _ => h4 k, fun k hk => by rw [h4, loadAt_top C s k (by omega)]⟩
  have push : ∀ o, (s'.fs.log = s.fs.log ++ [o]) → s'.fs.dir0 = s.fs.dir0 → s'.fs.durable = s.fs.durable →
      (∀ k i, s.fs.dirAt k s.base = some i → s'.fs.data i = s.fs.data i) →
      s.fs.log.length ≤ s'.fs.log.length ∧ s.fs.durable ≤ s'.fs.durable ∧ (∀ k ≤ s.fs.log.length, loadAt C s' k = loadAt C s k) ∧
      (o.apply s.fs.dir s.base = s.fs.dir s.base → ∀ k, s.fs.log.length < k → loadAt C s' k = load C s) ∧
      (∀ k, s.fs.log.length < k → s'.fs.dirAt k = o.apply s.fs.dir) := by
    intro o h1 h0 h2 h3
    have hd : ∀ k, s'.fs.dirAt k = (s.fs.push o).dirAt k := fun k => by simp only [Fs.dirAt, h1, h0, Fs.push]
    refine ⟨by rw [h1]; simp, by omega, ?_, ?_, ?_⟩
    · intro k hk
      exact loadAt_congr (by rw [hd, dirAt_push_le _ _ _ hk, hb]) (h3 k)
    · intro ho k hk
      rw [← loadAt_top C s s.fs.log.length (Nat.le_refl _)]
      exact loadAt_congr (by rw [hd, dirAt_push_gt _ _ _ hk, hb, ho, hi.dirAt_top]) (h3 _)
    · intro k hk
      rw [hd, dirAt_push_gt _ _ _ hk]
  cases a with
  | crash k junk => exact absurd rfl (hc k junk)
  | flush k =>
    simp only [exec] at he
    (repeat' split at he) <;> cases he
    rename_i hk
    obtain ⟨a1, a2, a3, a4⟩ := same rfl rfl hk.1 (fun _ _ _ => rfl)
    exact ⟨a1, a2, a3, .inl ⟨by (intro p h; cases h), a4⟩⟩
  | create p r =>
    simp only [exec] at he
    (repeat' split at he) <;> cases he
    obtain ⟨a1, a2, a3, a4, _⟩ := push (.create (tempName s.base r) s.fs.next) rfl rfl rfl (by
      intro k i h
      have := hi.old k _ i h
      have hne : i ≠ s.fs.next := by omega
      simp only [if_neg hne]; rfl)
    exact ⟨a1, a2, a3, .inl ⟨by (intro p h; cases h), a4 (by simp [DirOp.apply, (tempName_ne s.base r).symm])⟩⟩
  | chunk p n =>
    simp only [exec] at he
    (repeat' split at he) <;> cases he
    rename_i x hx _ t i rest hpc
    have ht := hi.temp p x t i hx (by rw [hpc]; rfl)
    obtain ⟨a1, a2, a3, a4⟩ := same rfl rfl (Nat.le_refl _) (by
      intro k m hm
      have hne : m ≠ i := fun e => ht.2.2.2 k (by rw [← e]; exact hm)
      simp only [if_neg hne])
    exact ⟨a1, a2, a3, .inl ⟨by (intro p h; cases h), a4⟩⟩
  | rename p ok =>
    simp only [exec] at he
    (repeat' split at he) <;> cases he
    · rename_i x hx _ t i hpc hok
      have ht := hi.temp p x t i hx (by rw [hpc]; rfl)
      have hf := hi.full p x t i hx (.inr hpc)
      obtain ⟨a1, a2, a3, _, a5⟩ := push (.rename t s.base) rfl rfl rfl (fun _ _ _ => rfl)
      refine ⟨a1, a2, a3, .inr ⟨p, x, by rw [hok], hx, setProc_self _ _ _, ?_⟩⟩
      intro k hk
      simp only [loadAt, a5 k hk]
      have : DirOp.apply s.fs.dir (.rename t s.base) s.base = some i := by simp [DirOp.apply, ht.2.1]
      show (match DirOp.apply s.fs.dir (.rename t s.base) s.base with | none => some C.init | some i => C.dec (s.fs.data i)) = _
      rw [this]
      simp only [hf.2]
    · rename_i hok
      obtain ⟨a1, a2, a3, a4⟩ := same rfl rfl (Nat.le_refl _) (fun _ _ _ => rfl)
      exact ⟨a1, a2, a3, .inl ⟨by (intro p h; cases h; exact hok rfl), a4⟩⟩
  | remove p ok =>
    simp only [exec] at he
    (repeat' split at he) <;> cases he
    · rename_i x hx _ t i hpc _
      have ht := hi.temp p x t i hx (by rw [hpc]; rfl)
      obtain ⟨a1, a2, a3, a4, _⟩ := push (.remove t) rfl rfl rfl (fun _ _ _ => rfl)
      exact ⟨a1, a2, a3, .inl ⟨by (intro p h; cases h), a4 (by simp [DirOp.apply, ht.1.symm])⟩⟩
    · obtain ⟨a1, a2, a3, a4⟩ := same rfl rfl (Nat.le_refl _) (fun _ _ _ => rfl)
      exact ⟨a1, a2, a3, .inl ⟨by (intro p h; cases h), a4⟩⟩
  | _ =>
    simp only [exec] at he
    (repeat' split at he) <;> cases he <;>
      (obtain ⟨a1, a2, a3, a4⟩ := same rfl rfl (Nat.le_refl _) (fun _ _ _ => rfl); exact ⟨a1, a2, a3, .inl ⟨by (intro p h; cases h), a4⟩⟩)

/-- A step allowed by `Alone`. -/
def AloneStep (le : J → J → Prop) (s : State J) : Act J → Prop
  | .start _ => ∀ q, s.procs q = none
  | .call p j _ => ∀ x, s.procs p = some x → x.closed = false → le x.mem j
  | _ => True

/-- Processes use the journal one after the other, and what is saved contains what the process had in memory. -/
def Alone (C : Codec J) (le : J → J → Prop) : State J → List (Act J) → Prop
  | _, [] => True
  | s, a :: as =>
    AloneStep le s a ∧ ∀ s', exec C s a = some s' → Alone C le s' as

/-- The machine does not crash. -/
def NoMachineCrash (acts : List (Act J)) : Prop := ∀ k junk, Act.crash k junk ∉ acts

/-- What holds between calls when processes run one after the other. -/
structure Seq (C : Codec J) (le : J → J → Prop) (s : State J) : Prop where
  one : ∀ p q x y, s.procs p = some x → s.procs q = some y → p = q
  above : ∀ p x, s.procs p = some x → ∃ j, load C s = some j ∧ le j x.mem
  busy : ∀ p x, s.procs p = some x → x.pc ≠ .idle → x.closed = false
  saved : ∀ p x, s.procs p = some x → x.pc = .idle → (x.result = some true ∨ x.closed = true) → load C s = some x.mem

theorem load_of_step {C : Codec J} {s s' : State J} (h : (∀ k, s.fs.log.length < k → loadAt C s' k = load C s)) : load C s' = load C s := by
  rw [← loadAt_top C s' (s.fs.log.length + 1 + s'.fs.log.length) (by omega)]
  exact h _ (by omega)

/-- What a step does to the running processes. -/
theorem step_proc {C : Codec J} {s s' : State J} {a : Act J} (he : exec C s a = some s') (q : Nat) (y : Proc J) (hq : s'.procs q = some y) :
    s.procs q = some y ∨ (∃ j, a = .start q ∧ load C s = some j ∧ y = ⟨j, false, false, .idle, none⟩) ∨
    (∃ x, s.procs q = some x ∧
      ((∃ j c, a = .call q j c ∧ x.pc = .idle ∧
          ((x.closed = true ∧ y = { x with result := some c }) ∨
            (x.closed = false ∧ y = { x with mem := j, isClose := c, pc := .creating, result := none }))) ∨
        (a = .rename q true ∧ y = { x with pc := .idle, result := some true, closed := x.isClose }) ∨
        (y.mem = x.mem ∧ y.closed = x.closed ∧ x.pc ≠ .idle ∧ (y.pc = .idle → y.result = some false)))) := by
  have upd : ∀ p x' t, some s' = some t → t.procs = (s.setProc p x').procs → q ≠ p ∨ x' = some y ∧ q = p := by
    intro p x' t hs ht
    cases hs
    by_cases hqp : q = p
    · subst hqp; rw [ht, setProc_self] at hq; exact .inr ⟨hq, rfl⟩
    · exact .inl hqp
  have other : ∀ p x' t, some s' = some t → t.procs = (s.setProc p x').procs → q ≠ p → s.procs q = some y := by
    intro p x' t hs ht hqp
    cases hs
    rw [ht, setProc_other _ _ _ _ hqp] at hq; exact hq
  cases a with
  | flush k =>
    simp only [exec] at he
    (repeat' split at he) <;> cases he
    exact .inl hq
  | crash k junk =>
    simp only [exec] at he
    (repeat' split at he) <;> cases he
    cases hq
  | start p =>
    simp only [exec] at he
    (repeat' split at he) <;> first | (cases he; done) | skip
    rename_i j hj
    rcases upd p _ _ he.symm rfl with h | ⟨h, rfl⟩
    · exact .inl (other p _ _ he.symm rfl h)
    · cases h; exact .inr (.inl ⟨j, rfl, hj, rfl⟩)
  | kill p =>
    simp only [exec] at he
    (repeat' split at he) <;> first | (cases he; done) | skip
    rcases upd p _ _ he.symm rfl with h | ⟨h, rfl⟩
    · exact .inl (other p _ _ he.symm rfl h)
    · cases h
  | call p j c =>
    simp only [exec] at he
    (repeat' split at he) <;> first | (cases he; done) | skip
    · rename_i x hx hpc hcl
      rcases upd p _ _ he.symm rfl with h | ⟨h, rfl⟩
      · exact .inl (other p _ _ he.symm rfl h)
      · cases h; exact .inr (.inr ⟨x, hx, .inl ⟨j, c, rfl, hpc, .inl ⟨hcl, rfl⟩⟩⟩)
    · rename_i x hx hpc hcl
      rcases upd p _ _ he.symm rfl with h | ⟨h, rfl⟩
      · exact .inl (other p _ _ he.symm rfl h)
      · cases h; exact .inr (.inr ⟨x, hx, .inl ⟨j, c, rfl, hpc, .inr ⟨by simpa using hcl, rfl⟩⟩⟩)
  | create p r =>
    simp only [exec] at he
    (repeat' split at he) <;> first | (cases he; done) | skip
    rename_i x hx hc
    rcases upd p _ _ he.symm rfl with h | ⟨h, rfl⟩
    · exact .inl (other p _ _ he.symm rfl h)
    · cases h; exact .inr (.inr ⟨x, hx, .inr (.inr ⟨rfl, rfl, by rw [hc.1]; simp, by simp⟩)⟩)
  | createFail p =>
    simp only [exec] at he
    (repeat' split at he) <;> first | (cases he; done) | skip
    rename_i x hx hc
    rcases upd p _ _ he.symm rfl with h | ⟨h, rfl⟩
    · exact .inl (other p _ _ he.symm rfl h)
    · cases h; exact .inr (.inr ⟨x, hx, .inr (.inr ⟨rfl, rfl, by rw [hc]; simp, by simp⟩)⟩)
  | rename p ok =>
    simp only [exec] at he
    (repeat' split at he) <;> first | (cases he; done) | skip
    · rename_i x hx _ t i hpc hok
      rcases upd p _ _ he.symm rfl with h | ⟨h, rfl⟩
      · exact .inl (other p _ _ he.symm rfl h)
      · cases h; exact .inr (.inr ⟨x, hx, .inr (.inl ⟨by rw [hok], rfl⟩)⟩)
    · rename_i x hx _ t i hpc hok
      rcases upd p _ _ he.symm rfl with h | ⟨h, rfl⟩
      · exact .inl (other p _ _ he.symm rfl h)
      · cases h; exact .inr (.inr ⟨x, hx, .inr (.inr ⟨rfl, rfl, by rw [hpc]; simp, by simp⟩)⟩)
  | remove p ok =>
    simp only [exec] at he
    (repeat' split at he) <;> first | (cases he; done) | skip
    all_goals
      rename_i x hx _ t i hpc _
      rcases upd p _ _ he.symm rfl with h | ⟨h, rfl⟩
      · exact .inl (other p _ _ he.symm rfl h)
      · cases h; exact .inr (.inr ⟨x, hx, .inr (.inr ⟨rfl, rfl, by rw [hpc]; simp, by simp⟩)⟩)
  | sync p ok =>
    simp only [exec] at he
    (repeat' split at he) <;> first | (cases he; done) | skip
    all_goals
      rename_i x hx _ t i hpc _
      rcases upd p _ _ he.symm rfl with h | ⟨h, rfl⟩
      · exact .inl (other p _ _ he.symm rfl h)
      · cases h; exact .inr (.inr ⟨x, hx, .inr (.inr ⟨rfl, rfl, by rw [hpc]; simp, by simp⟩)⟩)
  | close p ok =>
    simp only [exec] at he
    (repeat' split at he) <;> first | (cases he; done) | skip
    all_goals
      rename_i x hx _ t i hpc _
      rcases upd p _ _ he.symm rfl with h | ⟨h, rfl⟩
      · exact .inl (other p _ _ he.symm rfl h)
      · cases h; exact .inr (.inr ⟨x, hx, .inr (.inr ⟨rfl, rfl, by rw [hpc]; simp, by cases ok <;> simp⟩)⟩)
  | chunk p n =>
    simp only [exec] at he
    (repeat' split at he) <;> first | (cases he; done) | skip
    all_goals
      rename_i x hx _ t i rest hpc
      rcases upd p _ _ he.symm rfl with h | ⟨h, rfl⟩
      · exact .inl (other p _ _ he.symm rfl h)
      · cases h; exact .inr (.inr ⟨x, hx, .inr (.inr ⟨rfl, rfl, by rw [hpc]; simp, by simp⟩)⟩)
  | writeFail p =>
    simp only [exec] at he
    (repeat' split at he) <;> first | (cases he; done) | skip
    all_goals
      rename_i x hx _ t i rest hpc
      rcases upd p _ _ he.symm rfl with h | ⟨h, rfl⟩
      · exact .inl (other p _ _ he.symm rfl h)
      · cases h; exact .inr (.inr ⟨x, hx, .inr (.inr ⟨rfl, rfl, by rw [hpc]; simp, by simp⟩)⟩)

theorem crash_load {C : Codec J} {H : Data → Prop} {s s' : State J} {k : Nat} {junk : Nat → Data} (hi : Inv C H s)
    (he : exec C s (.crash k junk) = some s') :
    s.fs.durable ≤ k ∧ s'.fs.log.length = min k s.fs.log.length ∧ s'.fs.durable = s'.fs.log.length ∧ (∀ m, loadAt C s' m = loadAt C s (min m k)) ∧
      ∀ q, s'.procs q = none := by
  simp only [exec] at he
  split at he
  · rename_i hk
    cases he
    refine ⟨hk, by simp [Fs.crash], rfl, fun m => ?_, fun q => rfl⟩
    refine loadAt_congr (dirAt_take _ _ _ _ ▸ rfl) ?_
    intro i h
    have := (hi.journal _ i h).1
    simp [Fs.crash, this]
  · cases he

/-- The state between calls is kept by every step of processes that run one after the other. -/
theorem seq_step {C : Codec J} (hC : ∀ j, C.dec (C.enc j) = some j) {le : J → J → Prop} (hr : ∀ j, le j j) (ht : ∀ a b c, le a b → le b c → le a c)
    {H : Data → Prop} {s s' : State J} {a : Act J} {as : List (Act J)} (hi : Inv C H s) (hs : Seq C le s) (hal : Alone C le s (a :: as))
    (he : exec C s a = some s') : Seq C le s' := by
  by_cases hcr : ∃ k junk, a = .crash k junk
  · obtain ⟨k, junk, rfl⟩ := hcr
    have hn := (crash_load hi he).2.2.2.2
    exact ⟨fun p q x y h => by (rw [hn] at h; cases h), fun p x h => by (rw [hn] at h; cases h), fun p x h => by (rw [hn] at h; cases h), fun p x h => by (rw [hn] at h; cases h)⟩
  · have hc : ∀ k junk, a ≠ .crash k junk := fun k junk h => hcr ⟨k, junk, h⟩
    obtain ⟨_, _, _, hl⟩ := step_load hi he hc
    -- which processes run afterwards
    have hrun : ∀ q y, s'.procs q = some y → (∃ x, s.procs q = some x) ∨ (∀ p, s.procs p = none) ∧ a = .start q := by
      intro q y hq
      rcases step_proc he q y hq with h | ⟨j, rfl, _⟩ | ⟨x, hx, _⟩
      · exact .inl ⟨y, h⟩
      · exact .inr ⟨hal.1, rfl⟩
      · exact .inl ⟨x, hx⟩
    refine ⟨?_, ?_, ?_, ?_⟩
    · intro p q x y hp hq
      rcases hrun p x hp with ⟨x', hx'⟩ | ⟨hn, hap⟩
      · rcases hrun q y hq with ⟨y', hy'⟩ | ⟨hn, _⟩
        · exact hs.one p q x' y' hx' hy'
        · rw [hn] at hx'; cases hx'
      · rcases hrun q y hq with ⟨y', hy'⟩ | ⟨_, haq⟩
        · rw [hn] at hy'; cases hy'
        · rw [hap] at haq; cases haq; rfl
    · intro q y hq
      rcases hl with ⟨hnr, hl⟩ | ⟨p, x, rfl, hx, hx', hl⟩
      · rw [load_of_step hl]
        rcases step_proc he q y hq with h | ⟨j, rfl, hj, rfl⟩ | ⟨x, hx, ⟨j, c, rfl, hpc, ⟨hcl, rfl⟩ | ⟨hcl, rfl⟩⟩ | ⟨rfl, rfl⟩ | ⟨hm, _⟩⟩
        · exact hs.above q y h
        · exact ⟨j, hj, hr j⟩
        · exact hs.above q x hx
        · obtain ⟨j', h1, h2⟩ := hs.above q x hx
          exact ⟨j', h1, ht _ _ _ h2 (hal.1 x hx hcl)⟩
        · exact hs.above q x hx
        · rw [hm]; exact hs.above q x hx
      · have hq' : q = p := by
          rcases hrun q y hq with ⟨x', hx''⟩ | ⟨_, h⟩
          · exact hs.one q p x' x hx'' hx
          · cases h
        subst hq'
        rw [hx'] at hq
        cases hq
        refine ⟨x.mem, ?_, hr _⟩
        rw [← hC x.mem, ← loadAt_top C s' (s.fs.log.length + 1 + s'.fs.log.length) (by omega)]
        exact hl _ (by omega)
    · intro q y hq hpc
      rcases step_proc he q y hq with h | ⟨j, rfl, hj, rfl⟩ | ⟨x, hx, ⟨j, c, rfl, hpc', ⟨hcl, rfl⟩ | ⟨hcl, rfl⟩⟩ | ⟨rfl, rfl⟩ | ⟨hm, hcl, hp, hf⟩⟩
      · exact hs.busy q y h hpc
      · exact absurd rfl hpc
      · exact absurd hpc' hpc
      · exact hcl
      · exact absurd rfl hpc
      · rw [hcl]; exact hs.busy q x hx hp
    · intro q y hq hpc hres
      rcases hl with ⟨hnr, hl⟩ | ⟨p, x, rfl, hx, hx', hl⟩
      · rw [load_of_step hl]
        rcases step_proc he q y hq with h | ⟨j, rfl, hj, rfl⟩ | ⟨x, hx, ⟨j, c, rfl, hpc', ⟨hcl, rfl⟩ | ⟨hcl, rfl⟩⟩ | ⟨rfl, rfl⟩ | ⟨hm, hcl, hp, hf⟩⟩
        · exact hs.saved q y h hpc hres
        · rcases hres with h | h <;> cases h
        · exact hs.saved q x hx hpc' (.inr hcl)
        · cases hpc
        · exact absurd rfl (hnr q)
        · rcases hres with h | h
          · rw [hf hpc] at h; cases h
          · rw [hcl, hs.busy q x hx hp] at h; cases h
      · have hq' : q = p := by
          rcases hrun q y hq with ⟨x', hx''⟩ | ⟨_, h⟩
          · exact hs.one q p x' x hx'' hx
          · cases h
        subst hq'
        rw [hx'] at hq
        cases hq
        rw [← hC x.mem, ← loadAt_top C s' (s.fs.log.length + 1 + s'.fs.log.length) (by omega)]
        exact hl _ (by omega)

theorem alone_append {C : Codec J} {le : J → J → Prop} {s s' : State J} {a b : List (Act J)} (h : Alone C le s (a ++ b))
    (hr : run C s a = some s') : Alone C le s' b := by
  induction a generalizing s with
  | nil => cases hr; exact h
  | cons x xs ih =>
    simp only [run] at hr
    split at hr
    · cases hr
    · rename_i s1 h1
      exact ih (h.2 s1 h1) hr

theorem alone_prefix {C : Codec J} {le : J → J → Prop} {s : State J} {a b : List (Act J)} (h : Alone C le s (a ++ b)) : Alone C le s a := by
  induction a generalizing s with
  | nil => exact True.intro
  | cons x xs ih => exact ⟨h.1, fun s' hs => ih (h.2 s' hs)⟩

theorem run_snoc {C : Codec J} {s s1 s2 : State J} {a : List (Act J)} {x : Act J} (h1 : run C s a = some s1) (h2 : exec C s1 x = some s2) :
    run C s (a ++ [x]) = some s2 := by rw [run_append, h1]; simp [run, h2]

/-- `Seq` along runs. -/
theorem run_seq (C : Codec J) (hC : ∀ j, C.dec (C.enc j) = some j) {le : J → J → Prop} (hr : ∀ j, le j j) (ht : ∀ a b c, le a b → le b c → le a c)
    (base : Name) (d : Dir) (data : Nat → Data) (next : Nat) (hd : Sane d next) (acts : List (Act J)) (s : State J)
    (h : run C (boot base d data next) acts = some s) (hal : Alone C le (boot base d data next) acts) : Seq C le s := by
  refine run_induct (P := fun acts s => Alone C le (boot base d data next) acts → Seq C le s) ?_ ?_ acts s h hal
  · intro _
    exact ⟨fun p q x y h => by (cases h), fun p x h => by (cases h), fun p x h => by (cases h), fun p x h => by (cases h)⟩
  · intro acts s1 a s2 hr1 ih he hal
    exact seq_step hC hr ht (run_inv C base d data next hd hr1) (ih (alone_prefix hal)) (alone_append hal hr1) he

/-- Once a journal at least `j` is what a starting process finds (also after a machine crash, if `cr`), it stays so. -/
theorem keep_step {C : Codec J} (hC : ∀ j, C.dec (C.enc j) = some j) {le : J → J → Prop} (ht : ∀ a b c, le a b → le b c → le a c)
    {H : Data → Prop} {s s' : State J} {a : Act J} (hi : Inv C H s) (hs : Seq C le s)
    (he : exec C s a = some s') (cr : Bool) (hcr : cr = false → ∀ k junk, a ≠ .crash k junk) (j : J)
    (hk : ∀ k, (if cr then s.fs.durable else s.fs.log.length) ≤ k → ∃ j', loadAt C s k = some j' ∧ le j j') :
    ∀ k, (if cr then s'.fs.durable else s'.fs.log.length) ≤ k → ∃ j', loadAt C s' k = some j' ∧ le j j' := by
  intro k hk'
  by_cases hx : ∃ k junk, a = .crash k junk
  · obtain ⟨m, junk, rfl⟩ := hx
    obtain ⟨h1, h2, h3, h4, _⟩ := crash_load hi he
    cases cr with
    | false => exact absurd rfl (hcr rfl m junk)
    | true =>
      simp only [if_true] at hk hk'
      rw [h4]
      by_cases hml : m ≤ s.fs.log.length
      · exact hk _ (by omega)
      · by_cases hkm : k ≤ m
        · rw [Nat.min_eq_left hkm, loadAt_top C s k (by omega), ← loadAt_top C s m (by omega)]
          exact hk m h1
        · exact hk _ (by omega)
  · have hc : ∀ k junk, a ≠ .crash k junk := fun k junk h => hx ⟨k, junk, h⟩
    obtain ⟨h1, h2, h3, h4⟩ := step_load hi he hc
    have htop : ∃ j', load C s = some j' ∧ le j j' := by
      have := hk (s.fs.log.length + s.fs.durable) (by cases cr <;> simp)
      rwa [loadAt_top C s _ (by omega)] at this
    by_cases hkl : k ≤ s.fs.log.length
    · rw [h3 k hkl]
      apply hk
      cases cr <;> simp only [if_true, if_false, Bool.false_eq_true] at hk' ⊢ <;> omega
    · rcases h4 with ⟨_, h4⟩ | ⟨p, x, rfl, hp, hp', h4⟩
      · rw [h4 k (by omega)]; exact htop
      · rw [h4 k (by omega), hC]
        obtain ⟨j1, hj1, hle⟩ := htop
        obtain ⟨j2, hj2, hle2⟩ := hs.above p x hp
        rw [hj1] at hj2
        cases hj2
        exact ⟨x.mem, rfl, ht _ _ _ hle hle2⟩

/-- C90, saved is saved. Processes use the journal one after the other and what they save contains what they had loaded. When a call returned
nil, a process starting at that moment finds exactly the saved journal; and whatever happens later — failing calls, processes killed at any point — a
process that starts finds a journal containing it. This is also true across machine crashes if the directory had reached the disk when the call returned.
Missing for the full claim: other processes at the same time and machine crashes just after the call, see
`C90_two_processes_violated` and `C90_machine_crash_violated`. -/
theorem C90_saved_partial (C : Codec J) (hC : ∀ j, C.dec (C.enc j) = some j) (le : J → J → Prop) (hr : ∀ j, le j j)
    (ht : ∀ a b c, le a b → le b c → le a c) (base : Name) (d : Dir) (data : Nat → Data) (next : Nat) (hd : Sane d next)
    (before later : List (Act J)) (s1 s2 : State J) (h1 : run C (boot base d data next) before = some s1) (h2 : run C s1 later = some s2)
    (hal : Alone C le (boot base d data next) (before ++ later))
    (p : Nat) (x : Proc J) (hp : s1.procs p = some x) (hpc : x.pc = .idle) (hres : x.result = some true)
    (hcrash : NoMachineCrash later ∨ s1.fs.durable = s1.fs.log.length) :
    load C s1 = some x.mem ∧ ∃ j, load C s2 = some j ∧ le x.mem j := by
  have hseq := run_seq C hC hr ht base d data next hd before s1 h1 (alone_prefix hal)
  have hl := hseq.saved p x hp hpc (.inl hres)
  refine ⟨hl, ?_⟩
  obtain ⟨cr, hcr1, hcr2⟩ : ∃ cr : Bool, (cr = false → NoMachineCrash later) ∧ (cr = true → s1.fs.durable = s1.fs.log.length) := by
    rcases hcrash with h | h
    · exact ⟨false, fun _ => h, by simp⟩
    · exact ⟨true, by simp, fun _ => h⟩
  have hstart : ∀ k, (if cr then s1.fs.durable else s1.fs.log.length) ≤ k → ∃ j', loadAt C s1 k = some j' ∧ le x.mem j' := by
    intro k hk
    refine ⟨x.mem, ?_, hr _⟩
    rw [loadAt_top C s1 k (by cases cr <;> simp_all), hl]
  have hend : (cr = false → NoMachineCrash later) → Alone C le s1 later → ∀ k, (if cr then s2.fs.durable else s2.fs.log.length) ≤ k →
      ∃ j', loadAt C s2 k = some j' ∧ le x.mem j' := by
    refine run_induct (P := fun later s2 => (cr = false → NoMachineCrash later) → Alone C le s1 later →
      ∀ k, (if cr then s2.fs.durable else s2.fs.log.length) ≤ k → ∃ j', loadAt C s2 k = some j' ∧ le x.mem j') (fun _ _ => hstart) ?_ later s2 h2
    intro acts t a t' hrt ih he hn hal'
    have hrun : run C (boot base d data next) (before ++ acts) = some t := by rw [run_append, h1]; exact hrt
    have halb : Alone C le (boot base d data next) (before ++ acts) := by
      have key : ∀ (s : State J) (a b : List (Act J)) (s' : State J), Alone C le s a → run C s a = some s' → Alone C le s' b → Alone C le s (a ++ b) := by
        intro s a
        induction a generalizing s with
        | nil => intro b s' _ h hb; cases h; exact hb
        | cons y ys ih =>
          intro b s' ha h hb
          refine ⟨ha.1, fun s'' hs'' => ?_⟩
          simp only [run, hs''] at h
          exact ih s'' b s' (ha.2 s'' hs'') h hb
      exact key _ _ _ s1 (alone_prefix hal) h1 (alone_prefix hal')
    refine keep_step hC ht (run_inv C base d data next hd hrun) (run_seq C hC hr ht base d data next hd _ t hrun halb) he cr ?_ x.mem (ih ?_ (alone_prefix hal'))
    · intro hf k junk hk
      exact hn hf k junk (by rw [hk]; simp)
    · intro hf k junk hk
      exact hn hf k junk (by simp [hk])
  have := hend hcr1 (alone_append hal h1) (s2.fs.log.length + s2.fs.durable) (by cases cr <;> simp)
  rwa [loadAt_top C s2 _ (by omega)] at this

/-! ## A call that fails -/

/-- Acts in which only the process `p` does something, and does not start a new call. -/
def During (p : Nat) : Act J → Prop
  | .create q _ | .createFail q | .chunk q _ | .writeFail q | .sync q _ | .close q _ | .rename q _ | .remove q _ => q = p
  | .flush _ => True
  | _ => False

/-- What holds while a call is executed: `s` is the state when it began. -/
def Busy (s s' : State J) (p : Nat) (acts : List (Act J)) : Prop :=
  (∀ i, s.fs.dir s.base = some i → s'.fs.data i = s.fs.data i) ∧ ∃ y, s'.procs p = some y ∧
    ((y.result = none ∧ y.pc = .creating ∧ s'.fs.dir = s.fs.dir) ∨
     (∃ r i, y.result = none ∧ y.pc.temp = some (tempName s.base r, i) ∧ s.fs.dir (tempName s.base r) = none ∧
        s'.fs.dir = fun n => if n = tempName s.base r then some i else s.fs.dir n) ∨
     (y.result = some false ∧ y.pc = .idle ∧ ∀ n, s'.fs.dir n ≠ s.fs.dir n → Act.remove p false ∈ acts ∧ s.fs.dir n = none ∧ ∃ r, n = tempName s.base r) ∨
     (y.result = some true ∧ y.pc = .idle))

theorem Busy.journal {s s' : State J} {p : Nat} {acts : List (Act J)} (h : Busy s s' p acts) (hb : s'.base = s.base)
    (hn : ∀ y, s'.procs p = some y → y.result ≠ some true) : s'.fs.dir s.base = s.fs.dir s.base ∧ s'.journal = s.journal := by
  obtain ⟨hd, y, hy, h⟩ := h
  have hdir : s'.fs.dir s.base = s.fs.dir s.base := by
    rcases h with ⟨_, _, h⟩ | ⟨r, i, _, _, _, h⟩ | ⟨_, _, h⟩ | ⟨h, _⟩
    · rw [h]
    · rw [h]; simp [(tempName_ne s.base r).symm]
    · by_cases e : s'.fs.dir s.base = s.fs.dir s.base
      · exact e
      · obtain ⟨_, _, r, hr⟩ := h s.base e
        exact absurd hr.symm (tempName_ne s.base r)
    · exact absurd h (hn y hy)
  refine ⟨hdir, ?_⟩
  simp only [State.journal, hb, hdir]
  cases e : s.fs.dir s.base with
  | none => rfl
  | some i => simp [hd i e]

theorem busy_step {C : Codec J} {H : Data → Prop} {s s1 s2 : State J} {p : Nat} {acts : List (Act J)} {a : Act J} (hi : Inv C H s1)
    (hb : s1.base = s.base) (h : Busy s s1 p acts) (ha : During p a) (he : exec C s1 a = some s2) : Busy s s2 p (acts ++ [a]) := by
  obtain ⟨hd, y, hy, h⟩ := h
  cases a with
  | start q => cases ha
  | call q j c => cases ha
  | kill q => cases ha
  | crash k junk => cases ha
  | flush k =>
    simp only [exec] at he
    (repeat' split at he) <;> cases he
    refine ⟨hd, y, hy, ?_⟩
    rcases h with h | h | ⟨h1, h2, h3⟩ | h
    · exact .inl h
    · exact .inr (.inl h)
    · exact .inr (.inr (.inl ⟨h1, h2, fun n hn => ⟨List.mem_append_left _ (h3 n hn).1, (h3 n hn).2⟩⟩))
    · exact .inr (.inr (.inr h))
  | create q r =>
    cases ha
    simp only [exec, hy] at he
    split at he
    · rename_i hc
      cases he
      rcases h with ⟨h1, h2, h3⟩ | ⟨_, _, h1, h2, _⟩ | ⟨_, h2, _⟩ | ⟨_, h2⟩
      · refine ⟨?_, _, setProc_self _ _ _, .inr (.inl ⟨r, s1.fs.next, h1, by rw [← hb]; rfl, by rw [← h3, ← hb]; exact hc.2, ?_⟩)⟩
        · intro i hi'
          rw [← h3, ← hb] at hi'
          have := hi.old s1.fs.log.length _ i (by rw [hi.dirAt_top]; exact hi')
          have hne : i ≠ s1.fs.next := by omega
          show (if i = s1.fs.next then [] else s1.fs.data i) = _
          rw [if_neg hne]
          exact hd i (by rw [← h3, ← hb]; exact hi')
        · show (s1.fs.push _).dir = _
          rw [dir_push, h3, hb]
          rfl
      · rw [hc.1] at h2; cases h2
      · rw [hc.1] at h2; cases h2
      · rw [hc.1] at h2; cases h2
    · cases he
  | createFail q =>
    cases ha
    simp only [exec, hy] at he
    split at he
    · rename_i hc
      cases he
      rcases h with ⟨h1, h2, h3⟩ | ⟨_, _, h1, h2, _⟩ | ⟨_, h2, _⟩ | ⟨_, h2⟩
      · exact ⟨hd, _, setProc_self _ _ _, .inr (.inr (.inl ⟨rfl, rfl, fun n hn => absurd (by show s1.fs.dir n = _; rw [h3]) hn⟩))⟩
      · rw [hc] at h2; cases h2
      · rw [hc] at h2; cases h2
      · rw [hc] at h2; cases h2
    · cases he
  | chunk q n =>
    cases ha
    simp only [exec, hy] at he
    split at he
    · rename_i t i rest hpc
      cases he
      rcases h with ⟨_, h2, _⟩ | ⟨r, i', h1, h2, h3, h4⟩ | ⟨_, h2, _⟩ | ⟨_, h2⟩
      · rw [hpc] at h2; cases h2
      · refine ⟨?_, _, setProc_self _ _ _, .inr (.inl ⟨r, i', h1, by rw [← h2, hpc]; rfl, h3, h4⟩)⟩
        intro m hm
        have hne : m ≠ i := by
          intro e
          have := (hi.temp p y t i hy (by rw [hpc]; rfl)).2.2.2 s1.fs.log.length
          rw [hi.dirAt_top, hb, h4] at this
          simp only [(tempName_ne s.base r).symm, if_false] at this
          rw [hm, e] at this
          exact this rfl
        show (if m = i then s1.fs.data m ++ rest.take n else s1.fs.data m) = _
        rw [if_neg hne]
        exact hd m hm
      · rw [hpc] at h2; cases h2
      · rw [hpc] at h2; cases h2
    · cases he
  | writeFail q =>
    cases ha
    simp only [exec, hy] at he
    split at he
    · rename_i t i rest hpc
      cases he
      rcases h with ⟨_, h2, _⟩ | ⟨r, i', h1, h2, h3, h4⟩ | ⟨_, h2, _⟩ | ⟨_, h2⟩
      · rw [hpc] at h2; cases h2
      · exact ⟨hd, _, setProc_self _ _ _, .inr (.inl ⟨r, i', h1, by rw [← h2, hpc]; rfl, h3, h4⟩)⟩
      · rw [hpc] at h2; cases h2
      · rw [hpc] at h2; cases h2
    · cases he
  | sync q ok =>
    cases ha
    simp only [exec, hy] at he
    split at he
    · rename_i t i hpc
      split at he <;> cases he
      all_goals
        rcases h with ⟨_, h2, _⟩ | ⟨r, i', h1, h2, h3, h4⟩ | ⟨_, h2, _⟩ | ⟨_, h2⟩
        · rw [hpc] at h2; cases h2
        · exact ⟨hd, _, setProc_self _ _ _, .inr (.inl ⟨r, i', h1, by rw [← h2, hpc]; rfl, h3, h4⟩)⟩
        · rw [hpc] at h2; cases h2
        · rw [hpc] at h2; cases h2
    · cases he
  | close q ok =>
    cases ha
    simp only [exec, hy] at he
    split at he
    · rename_i t i hpc
      cases he
      rcases h with ⟨_, h2, _⟩ | ⟨r, i', h1, h2, h3, h4⟩ | ⟨_, h2, _⟩ | ⟨_, h2⟩
      · rw [hpc] at h2; cases h2
      · exact ⟨hd, _, setProc_self _ _ _, .inr (.inl ⟨r, i', h1, by rw [← h2, hpc]; cases ok <;> rfl, h3, h4⟩)⟩
      · rw [hpc] at h2; cases h2
      · rw [hpc] at h2; cases h2
    · cases he
  | rename q ok =>
    cases ha
    simp only [exec, hy] at he
    split at he
    · rename_i t i hpc
      split at he
      · cases he
        exact ⟨hd, _, setProc_self _ _ _, .inr (.inr (.inr ⟨rfl, rfl⟩))⟩
      · cases he
        rcases h with ⟨_, h2, _⟩ | ⟨r, i', h1, h2, h3, h4⟩ | ⟨_, h2, _⟩ | ⟨_, h2⟩
        · rw [hpc] at h2; cases h2
        · exact ⟨hd, _, setProc_self _ _ _, .inr (.inl ⟨r, i', h1, by rw [← h2, hpc]; rfl, h3, h4⟩)⟩
        · rw [hpc] at h2; cases h2
        · rw [hpc] at h2; cases h2
    · cases he
  | remove q ok =>
    cases ha
    simp only [exec, hy] at he
    split at he
    · rename_i t i hpc
      cases he
      rcases h with ⟨_, h2, _⟩ | ⟨r, i', h1, h2, h3, h4⟩ | ⟨_, h2, _⟩ | ⟨_, h2⟩
      · rw [hpc] at h2; cases h2
      · have ht : t = tempName s.base r := by rw [hpc] at h2; simp only [Pc.temp, Option.some.injEq, Prod.mk.injEq] at h2; exact h2.1
        cases ok with
        | true =>
          refine ⟨hd, _, setProc_self _ _ _, .inr (.inr (.inl ⟨rfl, rfl, fun n hn => absurd ?_ hn⟩))⟩
          show (s1.fs.push (.remove t)).dir n = _
          rw [dir_push, h4]
          simp only [DirOp.apply]
          split
          · rename_i e; rw [e, ht, h3]
          · rename_i e; rw [ht] at e; rw [if_neg e]
        | false =>
          refine ⟨hd, _, setProc_self _ _ _, .inr (.inr (.inl ⟨rfl, rfl, fun n hn => ?_⟩))⟩
          change s1.fs.dir n ≠ s.fs.dir n at hn
          rw [h4] at hn
          simp only at hn
          split at hn
          · rename_i e; exact ⟨by simp, by rw [e]; exact h3, r, e⟩
          · exact absurd rfl hn
      · rw [hpc] at h2; cases h2
      · rw [hpc] at h2; cases h2
    · cases he

/-- C90, an error changes nothing: if a call returns an error, the journal has the same bytes as before, and every name in the directory the same file.
Only when removing the temporary file failed as well, its name — which did not exist before — is left. -/
theorem C90_error_changes_nothing (C : Codec J) (base : Name) (d : Dir) (data : Nat → Data) (next : Nat) (hd : Sane d next)
    (before : List (Act J)) (s : State J) (h : run C (boot base d data next) before = some s) (p : Nat) (x : Proc J) (hp : s.procs p = some x)
    (hopen : x.closed = false) (j : J) (c : Bool) (acts : List (Act J)) (s' : State J) (h' : run C s (.call p j c :: acts) = some s')
    (hd' : ∀ a ∈ acts, During p a) (y : Proc J) (hy : s'.procs p = some y) (hres : y.result = some false) :
    s'.journal = s.journal ∧
    ∀ n, s'.fs.dir n ≠ s.fs.dir n → Act.remove p false ∈ acts ∧ s.fs.dir n = none ∧ ∃ r, n = tempName base r := by
  have hb := boot_base base d data next h
  have hcall : run C s [.call p j c] = some (s.setProc p (some { x with mem := j, isClose := c, pc := .creating, result := none })) ∧
      run C (s.setProc p (some { x with mem := j, isClose := c, pc := .creating, result := none })) acts = some s' := by
    simp only [run] at h' ⊢
    split at h'
    · cases h'
    · rename_i s0 h0
      have h0' := h0
      simp only [exec, hp] at h0
      split at h0
      · simp only [hopen, Bool.false_eq_true, if_false] at h0
        cases h0
        exact ⟨by rw [hopen], by rw [hopen]; exact h'⟩
      · cases h0
  obtain ⟨h0, hrun⟩ := hcall
  have key : (∀ a ∈ acts, During p a) → Busy s s' p acts := by
    refine run_induct (P := fun acts s' => (∀ a ∈ acts, During p a) → Busy s s' p acts) ?_ ?_ acts s' hrun
    · intro _
      exact ⟨fun i _ => rfl, _, setProc_self _ _ _, .inl ⟨rfl, rfl, rfl⟩⟩
    · intro acts s1 a s2 hr1 ih he hdur
      have hr2 : run C (boot base d data next) ((before ++ [.call p j c]) ++ acts) = some s1 := by
        rw [run_append, run_append, h]
        simp only [Option.bind, h0]
        exact hr1
      exact busy_step (run_inv C base d data next hd hr2) ((boot_base base d data next hr2).trans hb.symm)
        (ih (fun a ha => hdur a (List.mem_append_left _ ha))) (hdur a (by simp)) he
  have hbusy := key hd'
  have hb' : s'.base = s.base := by
    have hr2 : run C (boot base d data next) (before ++ (.call p j c :: acts)) = some s' := by rw [run_append, h]; exact h'
    exact (boot_base base d data next hr2).trans hb.symm
  refine ⟨(hbusy.journal hb' (fun z hz => ?_)).2, ?_⟩
  · rw [hy] at hz; cases hz; rw [hres]; simp
  · obtain ⟨_, z, hz, hcases⟩ := hbusy
    rw [hy] at hz
    cases hz
    rcases hcases with ⟨h1, _⟩ | ⟨_, _, h1, _⟩ | ⟨_, _, h1⟩ | ⟨h1, _⟩
    · rw [hres] at h1; cases h1
    · rw [hres] at h1; cases h1
    · rw [← hb]; exact h1
    · rw [hres] at h1; cases h1

/-! ## Other files, and a closed journal -/

/-- Files of the directory other than the journal are left alone. -/
theorem others_step {C : Codec J} {H : Data → Prop} {s s' : State J} {a : Act J} {d : Dir} {data : Nat → Data} {next : Nat} (hd : Sane d next)
    (hi : Inv C H s) (he : exec C s a = some s')
    (h : next ≤ s.fs.next ∧ (∀ n i, n ≠ s.base → d n = some i → ∀ k, s.fs.dirAt k n = some i) ∧ (∀ i < next, s.fs.data i = data i ∧ s.fs.synced i = true) ∧
      ∀ p x t i, s.procs p = some x → x.pc.temp = some (t, i) → d t = none ∧ next ≤ i) :
    next ≤ s'.fs.next ∧ (∀ n i, n ≠ s.base → d n = some i → ∀ k, s'.fs.dirAt k n = some i) ∧ (∀ i < next, s'.fs.data i = data i ∧ s'.fs.synced i = true) ∧
      ∀ p x t i, s'.procs p = some x → x.pc.temp = some (t, i) → d t = none ∧ next ≤ i := by
  obtain ⟨h1, h2, h3, h4⟩ := h
  have hproc : ∀ (q : Nat) (z' : Option (Proc J)) (f : Nat → Option (Proc J)), f = (s.setProc q z').procs →
      (∀ z t i, z' = some z → z.pc.temp = some (t, i) → d t = none ∧ next ≤ i) →
      ∀ p x t i, f p = some x → x.pc.temp = some (t, i) → d t = none ∧ next ≤ i := by
    intro q z' f hf hz p x t i hp ht
    rw [hf] at hp
    by_cases e : p = q
    · subst e; rw [setProc_self] at hp; exact hz x t i hp ht
    · rw [setProc_other _ _ _ _ e] at hp; exact h4 p x t i hp ht
  have push : ∀ o, (∀ n i, n ≠ s.base → d n = some i → o.apply s.fs.dir n = some i) →
      ∀ n i, n ≠ s.base → d n = some i → ∀ k, (s.fs.push o).dirAt k n = some i := by
    intro o ho n i hn hdn k
    rcases dirAt_push s.fs o k with hk | hk
    · rw [hk]; exact h2 n i hn hdn k
    · rw [hk]; exact ho n i hn hdn
  have hdir : ∀ n i, n ≠ s.base → d n = some i → s.fs.dir n = some i := fun n i hn hdn => by
    rw [← hi.dirAt_top]; exact h2 n i hn hdn _
  cases a with
  | start p =>
    simp only [exec] at he
    (repeat' split at he) <;> cases he
    exact ⟨h1, h2, h3, hproc p _ _ rfl (by intro z t i hz ht; cases hz; cases ht)⟩
  | kill p =>
    simp only [exec] at he
    (repeat' split at he) <;> cases he
    exact ⟨h1, h2, h3, hproc p _ _ rfl (by intro z t i hz ht; cases hz)⟩
  | flush k =>
    simp only [exec] at he
    (repeat' split at he) <;> cases he
    exact ⟨h1, h2, h3, h4⟩
  | crash k junk =>
    simp only [exec] at he
    (repeat' split at he) <;> cases he
    refine ⟨h1, fun n i hn hdn m => ?_, fun i hlt => ?_, fun p x t i hp => by cases hp⟩
    · show (s.fs.crash k junk).dirAt m n = some i
      rw [dirAt_take]; exact h2 n i hn hdn _
    · simp only [Fs.crash, (h3 i hlt).2, if_true, and_true]
      exact (h3 i hlt).1
  | call p j c =>
    simp only [exec] at he
    (repeat' split at he) <;> cases he
    · rename_i x hx hpc _
      exact ⟨h1, h2, h3, hproc p _ _ rfl (by intro z t i hz ht; cases hz; exact h4 p x t i hx ht)⟩
    · exact ⟨h1, h2, h3, hproc p _ _ rfl (by intro z t i hz ht; cases hz; cases ht)⟩
  | createFail p =>
    simp only [exec] at he
    (repeat' split at he) <;> cases he
    exact ⟨h1, h2, h3, hproc p _ _ rfl (by intro z t i hz ht; cases hz; cases ht)⟩
  | create p r =>
    simp only [exec] at he
    (repeat' split at he) <;> cases he
    rename_i x hx hc
    have hfree : d (tempName s.base r) = none := by
      cases e : d (tempName s.base r) with
      | none => rfl
      | some i =>
        have := hdir _ i (tempName_ne s.base r) e
        rw [hc.2] at this; cases this
    refine ⟨by show next ≤ s.fs.next + 1; omega, push (.create (tempName s.base r) s.fs.next) ?_, ?_, hproc p _ _ rfl ?_⟩
    · intro n i hn hdn
      have hne : n ≠ tempName s.base r := by intro e; rw [e, hfree] at hdn; cases hdn
      simp only [DirOp.apply, if_neg hne]
      exact hdir n i hn hdn
    · intro i hlt
      have hne : i ≠ s.fs.next := by omega
      simp only [if_neg hne]
      exact h3 i hlt
    · intro z t i hz ht
      cases hz
      simp only [Pc.temp, Option.some.injEq, Prod.mk.injEq] at ht
      obtain ⟨rfl, rfl⟩ := ht
      exact ⟨hfree, h1⟩
  | chunk p n =>
    simp only [exec] at he
    (repeat' split at he) <;> cases he
    rename_i x hx _ t i rest hpc
    have ht := h4 p x t i hx (by rw [hpc]; rfl)
    refine ⟨h1, h2, ?_, hproc p _ _ rfl (by intro z t i hz ht; cases hz; exact h4 p x t i hx (by rw [hpc]; exact ht))⟩
    intro m hlt
    have hne : m ≠ i := by omega
    simp only [if_neg hne]
    exact h3 m hlt
  | writeFail p =>
    simp only [exec] at he
    (repeat' split at he) <;> cases he
    rename_i x hx _ t i rest hpc
    exact ⟨h1, h2, h3, hproc p _ _ rfl (by intro z t i hz ht; cases hz; exact h4 p x t i hx (by rw [hpc]; exact ht))⟩
  | sync p ok =>
    simp only [exec] at he
    (repeat' split at he) <;> cases he
    · rename_i x hx _ t i hpc _
      refine ⟨h1, h2, ?_, hproc p _ _ rfl (by intro z t i hz ht; cases hz; exact h4 p x t i hx (by rw [hpc]; exact ht))⟩
      intro m hlt
      refine ⟨(h3 m hlt).1, ?_⟩
      show (if m = i then true else s.fs.synced m) = true
      rw [(h3 m hlt).2]; simp
    · rename_i x hx _ t i hpc _
      exact ⟨h1, h2, h3, hproc p _ _ rfl (by intro z t i hz ht; cases hz; exact h4 p x t i hx (by rw [hpc]; exact ht))⟩
  | close p ok =>
    simp only [exec] at he
    (repeat' split at he) <;> cases he
    all_goals
      rename_i x hx _ t i hpc _
      exact ⟨h1, h2, h3, hproc p _ _ rfl (by intro z t i hz ht; cases hz; exact h4 p x t i hx (by rw [hpc]; exact ht))⟩
  | rename p ok =>
    simp only [exec] at he
    (repeat' split at he) <;> cases he
    · rename_i x hx _ t i hpc _
      have ht := h4 p x t i hx (by rw [hpc]; rfl)
      refine ⟨h1, push (.rename t s.base) ?_, h3, hproc p _ _ rfl (by intro z t i hz ht; cases hz; cases ht)⟩
      intro n i' hn hdn
      have hne : n ≠ t := by intro e; rw [e, ht.1] at hdn; cases hdn
      simp only [DirOp.apply, if_neg hn, if_neg hne]
      exact hdir n i' hn hdn
    · rename_i x hx _ t i hpc _
      exact ⟨h1, h2, h3, hproc p _ _ rfl (by intro z t i hz ht; cases hz; exact h4 p x t i hx (by rw [hpc]; exact ht))⟩
  | remove p ok =>
    simp only [exec] at he
    (repeat' split at he) <;> cases he
    · rename_i x hx _ t i hpc _
      have ht := h4 p x t i hx (by rw [hpc]; rfl)
      refine ⟨h1, push (.remove t) ?_, h3, hproc p _ _ rfl (by intro z t i hz ht; cases hz; cases ht)⟩
      intro n i' hn hdn
      have hne : n ≠ t := by intro e; rw [e, ht.1] at hdn; cases hdn
      simp only [DirOp.apply, if_neg hne]
      exact hdir n i' hn hdn
    · exact ⟨h1, h2, h3, hproc p _ _ rfl (by intro z t i hz ht; cases hz; cases ht)⟩

/-- C90, nothing else is touched: every other file of the directory (also a temporary file left by a killed process) keeps its name and its bytes. -/
theorem C90_other_files (C : Codec J) (base : Name) (d : Dir) (data : Nat → Data) (next : Nat) (hd : Sane d next) (acts : List (Act J)) (s : State J)
    (h : run C (boot base d data next) acts = some s) (n : Name) (i : Nat) (hn : n ≠ base) (hi : d n = some i) :
    s.fs.dir n = some i ∧ s.fs.data i = data i := by
  have key : next ≤ s.fs.next ∧ (∀ n i, n ≠ s.base → d n = some i → ∀ k, s.fs.dirAt k n = some i) ∧ (∀ i < next, s.fs.data i = data i ∧ s.fs.synced i = true) ∧
      ∀ p x t i, s.procs p = some x → x.pc.temp = some (t, i) → d t = none ∧ next ≤ i := by
    refine run_induct (P := fun _ s => next ≤ s.fs.next ∧ (∀ n i, n ≠ s.base → d n = some i → ∀ k, s.fs.dirAt k n = some i) ∧
      (∀ i < next, s.fs.data i = data i ∧ s.fs.synced i = true) ∧
      ∀ p x t i, s.procs p = some x → x.pc.temp = some (t, i) → d t = none ∧ next ≤ i) ?_ ?_ acts s h
    · refine ⟨Nat.le_refl _, fun n i _ hdn k => ?_, fun i _ => ⟨rfl, rfl⟩, fun p x t i hp => by cases hp⟩
      rw [boot_dirAt]; exact hdn
    · intro acts s1 a s2 hr ih he
      have := others_step hd (run_inv C base d data next hd hr) he ih
      rw [exec_base he]
      exact this
  have hb := boot_base base d data next h
  refine ⟨?_, (key.2.2.1 i (hd n i hi)).1⟩
  rw [← dirAt_ge _ s.fs.log.length (Nat.le_refl _)]
  exact key.2.1 n i (by rw [hb]; exact hn) hi _

/-- C90, closed: after `Close` returned nil, calls of this journal write nothing: `Close` returns nil again, everything else an error, and the files stay as
they are. -/
theorem C90_closed (C : Codec J) (s s' : State J) (p : Nat) (x : Proc J) (hp : s.procs p = some x) (hpc : x.pc = .idle) (hcl : x.closed = true) (j : J) (c : Bool)
    (h : exec C s (.call p j c) = some s') : s'.fs = s.fs ∧ ∃ y, s'.procs p = some y ∧ y.result = some c ∧ y.mem = x.mem ∧ y.pc = .idle ∧ y.closed = true := by
  simp only [exec, hp, hpc, hcl, if_true] at h
  cases h
  exact ⟨rfl, _, setProc_self _ _ _, rfl, rfl, rfl, rfl⟩

/-- `Close` that returned nil closed the journal. -/
theorem C90_close_closes (C : Codec J) (s s' : State J) (p : Nat) (x : Proc J) (hp : s.procs p = some x) (hc : x.isClose = true)
    (h : exec C s (.rename p true) = some s') : ∃ y, s'.procs p = some y ∧ y.closed = true ∧ y.result = some true := by
  simp only [exec, hp] at h
  split at h
  · simp only [if_true] at h
    cases h
    exact ⟨_, setProc_self _ _ _, hc, rfl⟩
  · cases h

/-- C90, saving works: if no system call fails, a call on an open journal returns nil, and the journal holds all bytes of the journal in memory. -/
theorem C90_call_saves (C : Codec J) (s : State J) (p : Nat) (x : Proc J) (hp : s.procs p = some x) (hpc : x.pc = .idle) (hopen : x.closed = false) (j : J)
    (c : Bool) (r : Nat) (hr : s.fs.dir (tempName s.base r) = none) :
    ∃ s' y, run C s [.call p j c, .create p r, .chunk p (C.enc j).length, .sync p true, .close p true, .rename p true] = some s' ∧
      s'.journal = some (C.enc j) ∧ s'.procs p = some y ∧ y.pc = .idle ∧ y.result = some true ∧ y.mem = j ∧ y.closed = c ∧
      s'.fs.dir (tempName s.base r) = none := by
  simp only [run, exec, hp, hpc, hopen, if_true, Bool.false_eq_true, if_false, setProc_self]
  have h1 : (s.setProc p (some ⟨j, x.closed, c, .creating, none⟩)).fs.dir (tempName (s.setProc p (some ⟨j, x.closed, c, .creating, none⟩)).base r) = none := hr
  simp only [hopen] at h1
  simp only [h1, and_self, if_true, setProc_self, List.drop_length]
  refine ⟨_, _, rfl, ?_, setProc_self _ _ _, rfl, rfl, rfl, rfl, ?_⟩
  · simp only [State.journal, dir_push, State.setProc]
    simp only [DirOp.apply, if_true]
    simp [Fs.dir, Fs.push, List.foldl_append, DirOp.apply]
  · simp [State.setProc, dir_push, DirOp.apply, tempName_ne]

/-! ## Where the full claim fails -/

/-- Journals are byte strings; the bytes stand for completed files. -/
def bytesCodec : Codec Data := ⟨fun j => j, fun b => some b, []⟩

/-- Every byte of `a` is in `b`. -/
abbrev Sub (a b : Data) : Prop := a ⊆ b

def jname : Name := "journal".toList
def dir1 : Dir := fun n => if n = jname then some 0 else none
def data1 : Nat → Data := fun i => if i = 0 then [7] else []

theorem sane1 : Sane dir1 1 := by
  intro n i h
  simp only [dir1] at h
  split at h <;> cases h
  decide

/-- The steps of a successful call of process `p`. -/
def save (p : Nat) (j : Data) (r : Nat) : List (Act Data) :=
  [.call p j false, .create p r, .chunk p 1, .chunk p j.length, .sync p true, .close p true, .rename p true]

theorem alone_cons {C : Codec J} {le : J → J → Prop} {s s1 : State J} {a : Act J} {as : List (Act J)} (h1 : exec C s a = some s1)
    (h2 : AloneStep le s a) (h3 : Alone C le s1 as) : Alone C le s (a :: as) :=
  ⟨h2, fun s' h => by rw [h1] at h; cases h; exact h3⟩

/-- Process 0 starts, finds `[7]`, and saves `[7, 8]`. -/
def one : List (Act Data) := .start 0 :: save 0 [7, 8] 5

theorem one_alone : Alone bytesCodec Sub (boot jname dir1 data1 1) one := by
  refine ⟨fun q => rfl, fun s h => ?_⟩
  have hs : s = (boot jname dir1 data1 1).setProc 0 (some ⟨[7], false, false, .idle, none⟩) := by
    have : load bytesCodec (boot jname dir1 data1 1) = some [7] := by decide +kernel
    simp only [exec, this] at h
    simp only [boot] at h
    cases h
    rfl
  subst hs
  refine ⟨?_, ?_⟩
  · intro x hx _
    rw [setProc_self] at hx
    cases hx
    decide
  · intro s _
    exact ⟨True.intro, fun s _ => ⟨True.intro, fun s _ => ⟨True.intro, fun s _ => ⟨True.intro, fun s _ => ⟨True.intro, fun s _ => ⟨True.intro, fun s _ => True.intro⟩⟩⟩⟩⟩⟩

theorem alone_snoc {C : Codec J} {le : J → J → Prop} {s s1 : State J} {as : List (Act J)} {a : Act J} (h : Alone C le s as) (hr : run C s as = some s1)
    (ha : AloneStep le s1 a) : Alone C le s (as ++ [a]) := by
  induction as generalizing s with
  | nil => cases hr; exact ⟨ha, fun _ _ => True.intro⟩
  | cons x xs ih =>
    refine ⟨h.1, fun s' hs' => ?_⟩
    simp only [run, hs'] at hr
    exact ih (h.2 s' hs') hr

/-- C90 fails when the machine crashes: a call returned nil — and the file was synced —, but the renaming was not on the disk, so after the crash
the old journal is back. -/
theorem C90_machine_crash_violated : ∃ (before : List (Act Data)) (s1 s2 : State Data) (x : Proc Data) (k : Nat) (junk : Nat → Data),
    run bytesCodec (boot jname dir1 data1 1) before = some s1 ∧ run bytesCodec s1 [.crash k junk] = some s2 ∧
    Alone bytesCodec Sub (boot jname dir1 data1 1) (before ++ [.crash k junk]) ∧
    s1.procs 0 = some x ∧ x.pc = .idle ∧ x.result = some true ∧ load bytesCodec s1 = some x.mem ∧
    ∃ j, load bytesCodec s2 = some j ∧ ¬ Sub x.mem j := by
  obtain ⟨s1, h1⟩ := Option.isSome_iff_exists.1 (by decide +kernel : (run bytesCodec (boot jname dir1 data1 1) one).isSome = true)
  obtain ⟨s2, h2⟩ := Option.isSome_iff_exists.1 (by decide +kernel :
    (run bytesCodec (boot jname dir1 data1 1) (one ++ [.crash 0 (fun _ => [])])).isSome = true)
  have h3 : run bytesCodec s1 [.crash 0 (fun _ => [])] = some s2 := by rw [run_append, h1] at h2; exact h2
  have f1 : ((run bytesCodec (boot jname dir1 data1 1) one).bind (fun s => s.procs 0)).map (fun x => (x.mem, x.pc, x.result)) = some ([7, 8], .idle, some true) := by
    decide +kernel
  have f2 : (run bytesCodec (boot jname dir1 data1 1) one).bind (load bytesCodec) = some [7, 8] := by decide +kernel
  have f3 : (run bytesCodec (boot jname dir1 data1 1) (one ++ [.crash 0 (fun _ => [])])).bind (load bytesCodec) = some [7] := by decide +kernel
  rw [h1] at f1 f2
  rw [h2] at f3
  simp only [Option.bind] at f1 f2 f3
  cases hx : s1.procs 0 with
  | none => rw [hx] at f1; cases f1
  | some x =>
    rw [hx] at f1
    simp only [Option.map, Option.some.injEq, Prod.mk.injEq] at f1
    obtain ⟨g1, g2, g3⟩ := f1
    refine ⟨one, s1, s2, x, 0, _, h1, h3, alone_snoc one_alone h1 True.intro, hx, g2, g3, by rw [f2, g1], [7], f3, ?_⟩
    rw [g1]; decide

/-- The hypotheses of `C90_saved_partial` are met by this run, followed by a process that is killed in the middle of a write, and a third one. -/
example : (run bytesCodec (boot jname dir1 data1 1)
      (one ++ [.call 0 [7, 8, 9] false, .create 0 6, .chunk 0 2, .kill 0, .flush 3, .crash 3 (fun _ => [1]), .start 1])).bind
      (fun s => (s.procs 1).map (fun x => (x.mem, s.fs.dir (tempName jname 6), s.journal))) = some ([7, 8], some 2, some [7, 8]) ∧
    (run bytesCodec (boot jname dir1 data1 1) one).isSome = true ∧ Alone bytesCodec Sub (boot jname dir1 data1 1) one :=
  ⟨by decide +kernel, by decide +kernel, one_alone⟩

/-- Every call saves at least what the process had in memory. -/
def Grows (C : Codec J) (le : J → J → Prop) : State J → List (Act J) → Prop
  | _, [] => True
  | s, a :: as => (∀ p j c x, a = .call p j c → s.procs p = some x → le x.mem j) ∧ ∀ s', exec C s a = some s' → Grows C le s' as

/-- Decidable form for single runs. -/
def growsB (s : State Data) : List (Act Data) → Bool
  | [] => true
  | a :: as =>
    (match a with
      | .call p j _ => match s.procs p with
        | none => true
        | some x => decide (x.mem ⊆ j)
      | _ => true) &&
    match exec bytesCodec s a with
    | none => true
    | some s' => growsB s' as

theorem grows_of_growsB : ∀ (as : List (Act Data)) (s : State Data), growsB s as = true → Grows bytesCodec Sub s as
  | [], _, _ => True.intro
  | a :: as, s, h => by
    simp only [growsB, Bool.and_eq_true] at h
    refine ⟨?_, ?_⟩
    · intro p j c x ha hx
      subst ha
      simp only [hx, decide_eq_true_eq] at h
      exact h.1
    · intro s' hs'
      rw [hs'] at h
      exact grows_of_growsB as s' h.2

/-- Two processes: both start, then each saves what it has done. -/
def two : List (Act Data) := [.start 0, .start 1] ++ save 0 [7, 8] 5 ++ save 1 [7, 9] 6

/-- C90 fails for two processes at the same time: every call saves at least what its process loaded, no step fails and nothing crashes, and yet
what the first process saved with a nil result is gone after the second has saved. -/
theorem C90_two_processes_violated : ∃ (before later : List (Act Data)) (s1 s2 : State Data) (x : Proc Data),
    run bytesCodec (boot jname dir1 data1 1) before = some s1 ∧ run bytesCodec s1 later = some s2 ∧
    Grows bytesCodec Sub (boot jname dir1 data1 1) (before ++ later) ∧ NoMachineCrash (before ++ later) ∧
    s1.procs 0 = some x ∧ x.pc = .idle ∧ x.result = some true ∧ load bytesCodec s1 = some x.mem ∧
    ∃ j, load bytesCodec s2 = some j ∧ ¬ Sub x.mem j := by
  obtain ⟨s1, h1⟩ := Option.isSome_iff_exists.1 (by decide +kernel :
    (run bytesCodec (boot jname dir1 data1 1) ([.start 0, .start 1] ++ save 0 [7, 8] 5)).isSome = true)
  obtain ⟨s2, h2⟩ := Option.isSome_iff_exists.1 (by decide +kernel : (run bytesCodec (boot jname dir1 data1 1) two).isSome = true)
  have h3 : run bytesCodec s1 (save 1 [7, 9] 6) = some s2 := by
    have := h2
    rw [two, run_append, h1] at this
    exact this
  have f1 : ((run bytesCodec (boot jname dir1 data1 1) ([.start 0, .start 1] ++ save 0 [7, 8] 5)).bind (fun s => s.procs 0)).map
      (fun x => (x.mem, x.pc, x.result)) = some ([7, 8], .idle, some true) := by decide +kernel
  have f2 : (run bytesCodec (boot jname dir1 data1 1) ([.start 0, .start 1] ++ save 0 [7, 8] 5)).bind (load bytesCodec) = some [7, 8] := by
    decide +kernel
  have f3 : (run bytesCodec (boot jname dir1 data1 1) two).bind (load bytesCodec) = some [7, 9] := by decide +kernel
  rw [h1] at f1 f2
  rw [h2] at f3
  simp only [Option.bind] at f1 f2 f3
  cases hx : s1.procs 0 with
  | none => rw [hx] at f1; cases f1
  | some x =>
    rw [hx] at f1
    simp only [Option.map, Option.some.injEq, Prod.mk.injEq] at f1
    obtain ⟨g1, g2, g3⟩ := f1
    refine ⟨_, _, s1, s2, x, h1, h3, grows_of_growsB _ _ (by decide +kernel), ?_, hx, g2, g3, by rw [f2, g1], [7, 9], f3, ?_⟩
    · intro k junk h
      simp [save] at h
    · rw [g1]; decide

/-- The hypotheses of `C90_error_changes_nothing` are met: renaming fails, the temporary file is removed, the call returns an error. -/
example : (run bytesCodec (boot jname dir1 data1 1)
      (one ++ [.call 0 [7, 8, 9] false, .create 0 6, .chunk 0 3, .sync 0 true, .close 0 true, .rename 0 false, .remove 0 true])).bind
      (fun s => (s.procs 0).map (fun x => (x.result, s.journal, s.fs.dir (tempName jname 6)))) = some (some false, some [7, 8], none) := by
  decide +kernel

/-! ## The journals of `Verif.Model.Ingest` -/

/-- The current job of `b` has completed all that the current job of `a` has. -/
def JobsLe (a b : List Job) : Prop :=
  ∀ key n, Journal.Covered (lookup (newJob a).completed key) n → Journal.Covered (lookup (newJob b).completed key) n

theorem jobsLe_refl (a : List Job) : JobsLe a a := fun _ _ h => h
theorem jobsLe_trans (a b c : List Job) (h1 : JobsLe a b) (h2 : JobsLe b c) : JobsLe a c := fun k n h => h2 k n (h1 k n h)

theorem newJob_snoc (l : List Job) (j : Job) : newJob (l ++ [j]) = j := by simp [newJob]

theorem addFiles_grows (key : Str) (fs : List Str) (c : Completed) (hc : ValidC c) (k : Str) (n : Nat) (h : Journal.Covered (lookup c k) n) :
    Journal.Covered (lookup (addFiles key c fs).1 k) n := by
  induction fs generalizing c with
  | nil => exact h
  | cons f fs ih =>
    simp only [addFiles]
    split
    · exact h
    · rename_i x hx
      have hv := parseFileInterval_valid hx
      exact ih _ (addCompleted_valid hc key hv) ((addCompleted_covered hc key hv k n).2 (.inl h))

/-- C90, the order of `C90_saved_partial` for the journals of the ingest command is "completed ranges are kept": appending the job of a new run keeps them, and
so does `CommitProgress`, also when it stops at a file it cannot parse. -/
theorem C90_commit_grows (jobs : List Job) (hv : ValidC (newJob jobs).completed) (key : Str) (files : List Str) (co smt w : Bool) :
    JobsLe jobs (jobs ++ [newJob jobs]) ∧ JobsLe jobs (commitProgress key jobs files co smt w).1 := by
  refine ⟨fun k n h => by rw [newJob_snoc]; exact h, fun k n h => ?_⟩
  have := addFiles_grows key files _ hv k n h
  simp only [commitProgress]
  split <;> (simp only [setLast]; rw [newJob_snoc]; exact this)

example : ValidC (newJob [⟨false, false, 0, [("log".toList, [⟨10, 19⟩])]⟩]).completed ∧
    (commitProgress "log".toList [⟨false, false, 0, [("log".toList, [⟨10, 19⟩])]⟩] ["20-29.gz".toList] true true true).2.1 = true := by
  refine ⟨?_, by decide +kernel⟩
  apply BoundC.valid
  intro p hp x hx
  simp [newJob] at hp
  subst hp
  simp at hx
  subst hx
  simp [Journal.Interval.Valid, Journal.W]

end Fpki.JournalFile
