import Verif.Lemmas.SmtParUpdate
import Verif.Props.SmtStore

/-!
# `Update` with worker goroutines (C89)
-/
namespace Fpki.SmtPar

open Fpki.Smt (Node KVs Key Val digest rootHash run mapAfter ValidHist EdgeHist SizedHist b32 noPrefix)
open Fpki.SmtStore hiding Kids get update

/-! ## Specification -/

/-- The number of workers: goroutines that were started for a side and have a slot of the semaphore. -/
def Run.workers : Run → Nat
  | .code _ => 0
  | .left _ _ w l _ _ => (if w then 1 else 0) + l.workers
  | .both _ _ wl l wr r _ => (if wl then 1 else 0) + l.workers + (if wr then 1 else 0) + r.workers

/-- The accesses to the memory that the goroutines are about to make; `true` for a write. -/
def Run.accesses : Run → List (Loc × Bool)
  | .code (.get l _) => [(l, false)]
  | .code (.put l _ _) => [(l, true)]
  | .code _ => []
  | .left _ _ _ l _ _ => l.accesses
  | .both _ _ _ l _ r _ => l.accesses ++ r.accesses

/-- Two goroutines are about to access the same slot of a batch. (A race, if one of them writes; slots have no mutex.) -/
def Run.Collides : Run → Prop
  | .code _ => False
  | .left _ _ _ l _ _ => l.Collides
  | .both _ _ _ l _ r _ => l.Collides ∨ r.Collides ∨ ∃ p m a b, (Loc.slot p m, a) ∈ l.accesses ∧ (Loc.slot p m, b) ∈ r.accesses

/-- `Update` has returned `r`. -/
def Run.Returned (u : Run) (r : R) : Prop := u = .code (.ret r)

/-- The caches of the memory are those of the state. -/
def Caches (σ : Mem) (s : St) : Prop :=
  (∀ d, σ (.live d) = toCell (s.live d)) ∧ (∀ d, σ (.upd d) = toCell (s.upd d)) ∧ (∀ d, σ (.rem d) = .present ↔ d ∈ s.removed)

/-! ## Lemmas -/

variable {c : Cfg} {lim : Limits}

theorem workers_held : ∀ u : Run, u.workers = u.held
  | .code _ => rfl
  | .left _ _ w l _ _ => by simp only [Run.workers, Run.held, workers_held l, Bool.count]
  | .both _ _ wl l wr r _ => by simp only [Run.workers, Run.held, workers_held l, workers_held r, Bool.count]; omega

theorem Steps.trans {s t u : State} (h1 : Steps lim s t) (h2 : Steps lim t u) : Steps lim s u := by
  induction h2 with
  | refl => exact h1
  | tail _ hs ih => exact .tail ih hs

theorem steps_used {s t : State} (h : Steps lim s t) (hu : s.used = s.run.held + s.ending) (hc : s.used ≤ lim.cap) : t.used = t.run.held + t.ending ∧ t.used ≤ lim.cap := by
  induction h with
  | refl => exact ⟨hu, hc⟩
  | tail _ hs ih => exact step_used hs 0 ih.1 ih.2

theorem mem_rel (s : St) : Rel (memOf s) s :=
  ⟨fun _ => rfl, fun _ => rfl, fun d => ⟨fun h => by simp only [memOf, if_pos h], fun h => by simp only [memOf, if_neg h]⟩⟩

theorem Rel.caches {σ : Mem} {s : St} (h : Rel σ s) : Caches σ s := by
  refine ⟨h.live, h.upd, fun d => ⟨fun hp => ?_, (h.rem d).1⟩⟩
  by_cases hd : d ∈ s.removed
  · exact hd
  · rw [(h.rem d).2 hd] at hp; cases hp

theorem zero_empty {Hp : Bytes → Prop} (hA : NoAccident c.H Hp) {s : St} (hc : Coh c Hp s) : ∀ l, Zero l → memOf s l = .none := by
  have hz : ∀ b, ¬ (s.live (List.replicate 32 0) = some b ∨ s.upd (List.replicate 32 0) = some b) := by
    intro b hb
    obtain ⟨h, u, hu, hne, hd, _⟩ := hc _ _ hb
    exact digest_ne_zero hA hne hu.pre hd.symm
  rintro l (rfl | rfl)
  · show toCell (s.upd _) = _
    cases hx : s.upd (List.replicate 32 0) with
    | none => rfl
    | some b => exact absurd (Or.inr hx) (hz b)
  · show toCell (s.live _) = _
    cases hx : s.live (List.replicate 32 0) with
    | none => rfl
    | some b => exact absurd (Or.inl hx) (hz b)

theorem area_zero {Hp : Bytes → Prop} (hA : NoAccident c.H Hp) {h i ix : Nat} {q : Nat → Bool} {pos ref : List Bool} : ∀ l, Area c Hp h i q pos ref ix l → ¬ Zero l := by
  have hz : ¬ Own c Hp i q (List.replicate 32 0) := by
    rintro ⟨h, u, hu, hne, _, hd⟩
    exact digest_ne_zero hA hne hu.pre hd.symm
  rintro l hl (rfl | rfl)
  · exact hz hl
  · exact hz hl

theorem commitMem_eq {σ : Mem} {s : St} (h : Caches σ s) : commitMem σ s.db = (commit s).db := by
  funext d
  show _ = erase s.removed (written s) d
  unfold commitMem erase written
  rw [h.2.1]
  by_cases hd : d ∈ s.removed
  · rw [if_pos ((h.2.2 d).2 hd), if_pos hd]
  · rw [if_neg (fun hp => hd ((h.2.2 d).1 hp)), if_neg hd]
    cases s.upd d <;> rfl

/-- The accesses of a safe program are in its area, except for emptying entries. -/
theorem accesses_in : ∀ (u : Run) {σ : Mem} {A : Loc → Prop}, Safe Zero u.prog σ A → ∀ p m a, (Loc.slot p m, a) ∈ u.accesses → A (.slot p m)
  | .code (.ret _), _, _, _, _, _, _, h => by simp [Run.accesses] at h
  | .code (.get l k), σ, A, hs, p, m, a, h => by
    simp only [Run.accesses, List.mem_singleton, Prod.mk.injEq] at h
    rw [h.1]; exact hs.1
  | .code (.put l v k), σ, A, hs, p, m, a, h => by
    simp only [Run.accesses, List.mem_singleton, Prod.mk.injEq] at h
    rcases hs.1 with h1 | ⟨h1, _⟩
    · rw [h.1]; exact h1
    · rw [← h.1] at h1
      rcases h1 with h1 | h1 <;> cases h1
  | .code (.par _ _ _ _ _), _, _, _, _, _, _, h => by simp [Run.accesses] at h
  | .left _ _ _ l _ _, σ, A, ⟨A1, A2, s1, s2, hd, h1, h2, h3⟩, p, m, a, h => s1 _ (accesses_in l h1 p m a h)
  | .both _ _ _ l _ r _, σ, A, ⟨A1, A2, s1, s2, hd, h1, h2, h3⟩, p, m, a, h => by
    rcases List.mem_append.1 h with h | h
    · exact s1 _ (accesses_in l h1 p m a h)
    · exact s2 _ (accesses_in r h2 p m a h)

theorem safe_collides : ∀ (u : Run) {σ : Mem} {A : Loc → Prop}, Safe Zero u.prog σ A → ¬ u.Collides
  | .code _, _, _, _ => fun h => h
  | .left _ _ _ l _ _, σ, A, ⟨A1, A2, s1, s2, hd, h1, h2, h3⟩ => safe_collides l h1
  | .both _ _ _ l _ r _, σ, A, ⟨A1, A2, s1, s2, hd, h1, h2, h3⟩ => by
    rintro (h | h | ⟨p, m, a, b, ha, hb⟩)
    · exact safe_collides l h1 h
    · exact safe_collides r h2 h
    · exact hd _ (accesses_in l h1 p m a ha) (accesses_in r h2 p m b hb)

/-- An `Update` of an idle trie, under any schedule. -/
theorem par_update {Hp : Bytes → Prop} (hA : NoAccident c.H Hp) (hn : c.n = 256) {t : Node} {tr : Trie} (hi : Idle c Hp t tr) {kvs : KVs} (hg : Good1 c Hp t kvs) {e : Nat} {u : State} (hs : Steps lim (start c tr kvs e) u) :
    ¬ u.run.Collides ∧ ∀ r, u.run.Returned r → ∃ tr1, tr.update c kvs = some tr1 ∧ rootAfter r = some tr1.root ∧ Rel u.mem tr1.st := by
  have hcall := hi.call hg
  obtain ⟨hsafe, res, e1, e2, e3, _⟩ := wp_update hA hn tr.st.db 256 0 noPrefix tr.root t kvs [] 0 tr.st [] [] (memOf tr.st) hcall rfl (mem_rel _) (fun h => absurd rfl h)
  have hkeep := steps_keep (Z := Zero) (A := Area c Hp 256 0 noPrefix [] [] 0) hs (area_zero hA) (zero_empty hA hi.coh) (by
    show Safe Zero (updateP c tr.st.db c.n tr.root kvs [] [] 0) _ _
    rw [hn]; exact hsafe)
  have hev : ev (start c tr kvs e).run.prog (start c tr kvs e).mem = ev (updateP c tr.st.db 256 tr.root kvs [] [] 0) (memOf tr.st) := by
    show ev (updateP c tr.st.db c.n tr.root kvs [] [] 0) _ = _
    rw [hn]; rfl
  rw [hev] at hkeep
  refine ⟨safe_collides _ hkeep.1, fun r hr => ?_⟩
  unfold Run.Returned at hr
  have h2 := hkeep.2.1
  rw [hr] at h2
  simp only [Run.prog, ev] at h2
  rw [← h2] at e2 e3
  refine ⟨⟨if res.node.length ≠ 0 then res.node.take 32 else [], res.st⟩, ?_, ?_, e3⟩
  · unfold Trie.update
    have : kvs.isEmpty = false := by simpa using hg.ne
    rw [if_neg (by simp [this]), hn, e1]
  · dsimp only at e2
    rw [e2]; rfl

/-! ## C89 -/

/-- C89, result: after any life of a trie (as in C10), `Update` with any semaphore and any schedule of its goroutines returns the root of the tree of all the batches, and leaves in the caches and in the list of nodes to be removed what `Update` without goroutines (C10) leaves there.
Proved with the hypotheses of `C10_committed_partial`. -/
theorem C89_result_partial (hn : c.n = 256) (ops : List Op) (kvs : KVs) (hne : kvs ≠ []) (hv : ValidHist 256 (batches ops ++ [kvs])) (he : EdgeHist (batches ops ++ [kvs])) (hs : SizedHist (batches ops ++ [kvs]))
    (hc : Changing (fun _ => none) (batches ops ++ [kvs])) (ht : NoTwins (batches ops ++ [kvs])) (hA : NoAccident c.H (Hashed c.H (batches ops ++ [kvs]))) {tr : Trie} (hl : life c ops = some tr)
    (lim : Limits) (e : Nat) {u : State} (hst : Steps lim (start c tr kvs e) u) {r : R} (hr : u.run.Returned r) :
    rootAfter r = some ((rootHash c.H 256 (run 256 (batches ops ++ [kvs]))).getD []) ∧ ∃ tr1, tr.update c kvs = some tr1 ∧ rootAfter r = some tr1.root ∧ Caches u.mem tr1.st := by
  have hv0 : ValidHist 256 (batches ops) := fun k hk => hv k (List.mem_append_left _ hk)
  have he0 : EdgeHist (batches ops) := fun k hk => he k (List.mem_append_left _ hk)
  have hs0 : SizedHist (batches ops) := fun k hk => hs k (List.mem_append_left _ hk)
  have ht0 : NoTwins (batches ops) := fun k hk p hp k' hk' => ht k (List.mem_append_left _ hk) p hp k' (List.mem_append_left _ hk')
  obtain ⟨tr', f1, f2⟩ := idle_life hA hn ops hv0 he0 hs0 (changing_snoc hc).1 ht0 (fun x hx => hx.mono)
  rw [hl] at f1
  cases f1
  obtain ⟨hg, hrun⟩ := good1_of_hist hne hv he hs hc ht (fun _ h => h)
  obtain ⟨tr1, g1, g2, g3⟩ := (par_update hA hn f2 hg hst).2 r hr
  refine ⟨?_, tr1, g1, g2, g3.caches⟩
  obtain ⟨tr2, k1, _, _, _, _, k2⟩ := commit_ok hA hn f2 hg
  rw [g1] at k1
  cases k1
  have := idle_root k2
  rw [hrun] at this
  rw [g2]
  exact congrArg some this

/-- C89, what is committed: whatever the schedule of `Update` was, a trie opened on the DB after `Commit`, with the root that `Update` returned, returns for every key the value that the batches assigned last. -/
theorem C89_committed_partial (hn : c.n = 256) (ops : List Op) (kvs : KVs) (hne : kvs ≠ []) (hv : ValidHist 256 (batches ops ++ [kvs])) (he : EdgeHist (batches ops ++ [kvs])) (hs : SizedHist (batches ops ++ [kvs]))
    (hc : Changing (fun _ => none) (batches ops ++ [kvs])) (ht : NoTwins (batches ops ++ [kvs])) (hA : NoAccident c.H (Hashed c.H (batches ops ++ [kvs]))) {tr : Trie} (hl : life c ops = some tr)
    (lim : Limits) (e : Nat) {u : State} (hst : Steps lim (start c tr kvs e) u) {r : R} (hr : u.run.Returned r) :
    ∃ root, rootAfter r = some root ∧ ∀ k, k.length = 32 → ∃ s, (newTrie root (commitMem u.mem tr.st.db)).get c k = some (mapAfter (batches ops ++ [kvs]) k, s) := by
  have hb : batches (ops ++ [.write kvs]) = batches ops ++ [kvs] := by simp [batches]
  obtain ⟨_, tr1, g1, g2, g3⟩ := C89_result_partial hn ops kvs hne hv he hs hc ht hA hl lim e hst hr
  obtain ⟨tr2, k1, k2, k3⟩ := C10_committed_partial hn (ops ++ [.write kvs]) (by rw [hb]; exact hv) (by rw [hb]; exact he) (by rw [hb]; exact hs) (by rw [hb]; exact hc) (by rw [hb]; exact ht) (by rw [hb]; exact hA)
  rw [life_snoc, hl] at k1
  have k1 : Option.map Trie.commit (tr.update c kvs) = some tr2 := k1
  rw [g1] at k1
  cases k1
  refine ⟨tr1.root, g2, fun k hk => ?_⟩
  obtain ⟨s, hs'⟩ := (k3 k hk).2
  rw [hb] at hs'
  have hdb : tr1.st.db = tr.st.db := by
    have hv0 : ValidHist 256 (batches ops) := fun k hk => hv k (List.mem_append_left _ hk)
    have he0 : EdgeHist (batches ops) := fun k hk => he k (List.mem_append_left _ hk)
    have hs0 : SizedHist (batches ops) := fun k hk => hs k (List.mem_append_left _ hk)
    have ht0 : NoTwins (batches ops) := fun k hk p hp k' hk' => ht k (List.mem_append_left _ hk) p hp k' (List.mem_append_left _ hk')
    obtain ⟨tr', f1, f2⟩ := idle_life hA hn ops hv0 he0 hs0 (changing_snoc hc).1 ht0 (fun x hx => hx.mono)
    rw [hl] at f1
    cases f1
    obtain ⟨hg, _⟩ := good1_of_hist hne hv he hs hc ht (fun _ h => h)
    obtain ⟨tr2, k1, _, k4, _⟩ := commit_ok hA hn f2 hg
    rw [g1] at k1
    cases k1
    exact k4
  refine ⟨s, ?_⟩
  rw [← hdb, commitMem_eq g3]
  exact hs'

/-- C89, races: in no state of any schedule are two goroutines about to access the same slot of a batch. -/
theorem C89_no_race_partial (hn : c.n = 256) (ops : List Op) (kvs : KVs) (hne : kvs ≠ []) (hv : ValidHist 256 (batches ops ++ [kvs])) (he : EdgeHist (batches ops ++ [kvs])) (hs : SizedHist (batches ops ++ [kvs]))
    (hc : Changing (fun _ => none) (batches ops ++ [kvs])) (ht : NoTwins (batches ops ++ [kvs])) (hA : NoAccident c.H (Hashed c.H (batches ops ++ [kvs]))) {tr : Trie} (hl : life c ops = some tr)
    (lim : Limits) (e : Nat) {u : State} (hst : Steps lim (start c tr kvs e) u) : ¬ u.run.Collides := by
  have hv0 : ValidHist 256 (batches ops) := fun k hk => hv k (List.mem_append_left _ hk)
  have he0 : EdgeHist (batches ops) := fun k hk => he k (List.mem_append_left _ hk)
  have hs0 : SizedHist (batches ops) := fun k hk => hs k (List.mem_append_left _ hk)
  have ht0 : NoTwins (batches ops) := fun k hk p hp k' hk' => ht k (List.mem_append_left _ hk) p hp k' (List.mem_append_left _ hk')
  obtain ⟨tr', f1, f2⟩ := idle_life hA hn ops hv0 he0 hs0 (changing_snoc hc).1 ht0 (fun x hx => hx.mono)
  rw [hl] at f1
  cases f1
  obtain ⟨hg, _⟩ := good1_of_hist hne hv he hs hc ht (fun _ h => h)
  exact (par_update hA hn f2 hg hst).1

/-- C89, workers: in every state of every schedule of every `Update`, at most as many workers are running as the semaphore has slots. -/
theorem C89_workers (tr : Trie) (kvs : KVs) (e : Nat) (he : e ≤ lim.cap) {u : State} (hst : Steps lim (start c tr kvs e) u) : u.run.workers ≤ lim.cap := by
  obtain ⟨h1, h2⟩ := steps_used hst (by show e = 0 + e; omega) he
  rw [workers_held]
  omega

/-- C89, end: no schedule of any `Update` is infinite. -/
theorem C89_ends (tr : Trie) (kvs : KVs) (e : Nat) (f : Nat → State) (h0 : f 0 = start c tr kvs e) : ¬ ∀ n, Step lim (f n) (f (n + 1)) := by
  intro h
  have key : ∀ s, Acc (fun t s => Step lim s t) s → ∀ n, f n ≠ s := by
    intro s hs
    induction hs with
    | intro s _ ih =>
      intro n hn
      exact ih (f (n + 1)) (by rw [← hn]; exact h n) (n + 1) rfl
  exact key _ (acc_step lim _) 0 rfl

/-- C89, deadlock: in every state of every schedule of every `Update`, some goroutine can go on, or `Update` has returned and all slots of the semaphore are free. -/
theorem C89_no_deadlock (tr : Trie) (kvs : KVs) (e : Nat) (he : e ≤ lim.cap) {u : State} (hst : Steps lim (start c tr kvs e) u) : (∃ t, Step lim u t) ∨ (u.used = 0 ∧ ∃ r, u.run.Returned r) := by
  obtain ⟨h1, h2⟩ := steps_used hst (by show e = 0 + e; omega) he
  obtain ⟨rn, n, en, σ⟩ := u
  rcases run_progress lim rn n en σ with ⟨r, rfl⟩ | h
  · have h1 : n = 0 + en := h1
    cases en with
    | zero => exact Or.inr ⟨by show n = 0; omega, r, rfl⟩
    | succ en =>
      obtain ⟨n, rfl⟩ : ∃ k, n = k + 1 := ⟨en, by omega⟩
      exact Or.inl ⟨_, .free _ n en σ⟩
  · exact Or.inl h

/-- From every state of every schedule, `Update` can go on to its end. -/
theorem C89_can_end (tr : Trie) (kvs : KVs) (e : Nat) (he : e ≤ lim.cap) {u : State} (hst : Steps lim (start c tr kvs e) u) : ∃ v r, Steps lim u v ∧ v.run.Returned r ∧ v.used = 0 := by
  have hacc := acc_step lim u
  induction hacc with
  | intro u _ ih =>
    rcases C89_no_deadlock tr kvs e he hst with ⟨t, h⟩ | ⟨h1, r, h2⟩
    · obtain ⟨v, r, k1, k2⟩ := ih t h (.tail hst h)
      exact ⟨v, r, Steps.trans (.tail (.refl u) h) k1, k2⟩
    · exact ⟨u, r, .refl u, h2, h1⟩

/-! ### A concrete case -/

def exPre : List Op := exOps.take 3
/-- Two keys on the two sides of the root. -/
def exKvs : KVs := [(b32 0x08, some (b32 3)), (b32 0x80, some (b32 4))]

/-- The hypotheses of the theorems hold for the second update of `exOps`. -/
theorem exPar_ok : exKvs ≠ [] ∧ ValidHist 256 (batches exPre ++ [exKvs]) ∧ EdgeHist (batches exPre ++ [exKvs]) ∧ SizedHist (batches exPre ++ [exKvs]) ∧ Changing (fun _ => none) (batches exPre ++ [exKvs]) ∧
    NoTwins (batches exPre ++ [exKvs]) := by decide +kernel

theorem exPar_hash : NoAccident exCfg.H (Hashed exCfg.H (batches exPre ++ [exKvs])) :=
  exNoAccident.mono (fun _ h => Hashed.mono (kvs := [(b32 0x80, none)]) h)

example : (life exCfg exPre).isSome = true := by decide +kernel

/-- A schedule: the first goroutine goes on until it waits for both sides. -/
def advance (lim : Limits) : State → State
  | ⟨.code (.get l k), n, e, σ⟩ => ⟨.code (k (σ l)), n, e, σ⟩
  | ⟨.code (.put l v k), n, e, σ⟩ => ⟨.code k, n, e, σ.set l v⟩
  | ⟨.code (.par nl nr p q k), n, e, σ⟩ => ⟨.left nl nr (lim.spawns nl n) (.code p) q k, n + Bool.count (lim.spawns nl n), e, σ⟩
  | ⟨.left nl nr true l q k, n, e, σ⟩ => ⟨.both nl nr true l (lim.spawns nr n) (.code q) k, n + Bool.count (lim.spawns nr n), e, σ⟩
  | s => s

theorem advance_steps (lim : Limits) (s : State) : Steps lim s (advance lim s) := by
  unfold advance
  split
  · exact .tail (.refl _) (.get ..)
  · exact .tail (.refl _) (.put ..)
  · exact .tail (.refl _) (.first ..)
  · exact .tail (.refl _) (.second ..)
  · exact .refl _

def advances (lim : Limits) : Nat → State → State
  | 0, s => s
  | n + 1, s => advances lim n (advance lim s)

theorem advances_steps (lim : Limits) : ∀ (n : Nat) (s : State), Steps lim s (advances lim n s)
  | 0, s => .refl s
  | n + 1, s => Steps.trans (advance_steps lim s) (advances_steps lim n _)

/-- A state with two workers is reached. -/
example : ((life exCfg exPre).map fun tr => (advances ⟨2, 1⟩ 100 (start exCfg tr exKvs 0)).run.workers) = some 2 := by decide +kernel

/-- With one slot only, one worker is started; with 4096 keys at least for a worker, none. -/
example : ((life exCfg exPre).map fun tr => (advances ⟨1, 1⟩ 100 (start exCfg tr exKvs 0)).run.workers) = some 1 := by decide +kernel
example : ((life exCfg exPre).map fun tr => (advances ⟨2, 4096⟩ 100 (start exCfg tr exKvs 0)).run.workers) = some 0 := by decide +kernel

end Fpki.SmtPar
