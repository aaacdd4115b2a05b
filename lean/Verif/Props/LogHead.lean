import Verif.Model.LogHead
import Verif.Props.MerkleLog
import Verif.Props.LogClient
import Mathlib.Data.List.Forall2

/-! # C129, C130: tree heads of the log client, and an auditing client -/
namespace Fpki.LogHead

open Fpki.MerkleLog
open Fpki.LogClient (Reply)

/-! ## C129: the tree head a client has -/

/-- The last answer that can be decoded. -/
def lastRoot (decode : Bytes → Option Root) (answers : List (Option Bytes)) : Option Root := (answers.filterMap fun a => a.bind decode).getLast?

/-- C129: after calls of `UpdateTreeSize` one after the other, with whatever answers, a new client has the root of the last answer that could be decoded, and its size as an `int64`. -/
theorem C129_sequential (decode : Bytes → Option Root) (answers : List (Option Bytes)) :
    (updates decode newClient answers).root = lastRoot decode answers ∧
    (updates decode newClient answers).size = (match lastRoot decode answers with | none => 0 | some r => toInt64 r.size) := by
  have key : ∀ (answers : List (Option Bytes)) (c : Client), updates decode c answers =
      match lastRoot decode answers with | none => c | some r => ⟨some r, toInt64 r.size⟩ := by
    intro answers
    induction answers with
    | nil => intro c; rfl
    | cons a l ih =>
      intro c
      have e : updates decode c (a :: l) = updates decode (updateTreeSize decode c a).1 l := rfl
      rw [e, ih]
      unfold lastRoot updateTreeSize updateLogRoot getCurrentLogRoot
      rw [List.filterMap_cons]
      cases ha : a.bind decode with
      | none => rfl
      | some r =>
        dsimp only
        rw [List.getLast?_cons]
        cases (List.filterMap (fun a => a.bind decode) l).getLast? <;> rfl
  rw [key]
  cases lastRoot decode answers <;> exact ⟨rfl, rfl⟩

/-- C129: a call that gives an error changes nothing; one that succeeds leaves the root of its own answer. -/
theorem C129_call (decode : Bytes → Option Root) (c c' : Client) (a : Option Bytes) (ok : Bool) (h : updateTreeSize decode c a = (c', ok)) :
    (ok = false → c' = c ∧ a.bind decode = none) ∧ (ok = true → ∃ r, a.bind decode = some r ∧ c' = ⟨some r, toInt64 r.size⟩) := by
  unfold updateTreeSize updateLogRoot getCurrentLogRoot at h
  cases ha : a.bind decode with
  | none =>
    rw [ha] at h
    simp only [Prod.mk.injEq] at h
    obtain ⟨rfl, rfl⟩ := h
    exact ⟨fun _ => ⟨rfl, rfl⟩, fun h => by cases h⟩
  | some r =>
    rw [ha] at h
    simp only [Prod.mk.injEq] at h
    obtain ⟨rfl, rfl⟩ := h
    exact ⟨fun h => (by cases h), fun _ => ⟨r, rfl, rfl⟩⟩

/-- The size is that of the root, for every tree below `2^63` leaves. -/
theorem C129_size_partial (n : Nat) (h : n < 2 ^ 63) : toInt64 n = n := by unfold toInt64; rw [if_pos h]

/-- C129 is violated beyond: the size becomes negative, and every proof asked for it is refused. -/
theorem C129_size_violated (n : Nat) (h1 : 2 ^ 63 ≤ n) (h2 : n < 2 ^ 64) (H : Bytes → Bytes) (entries : List Bytes) (leaf : Bytes) :
    toInt64 n < 0 ∧ serve H entries (toInt64 n) leaf = .err () := by
  have : toInt64 n < 0 := by unfold toInt64; rw [if_neg (by omega)]; omega
  refine ⟨this, ?_⟩
  unfold serve
  rw [if_pos (by omega)]

/-- C129 is violated if a log misbehaves: whatever the client had, it takes the root of a smaller or of another tree without a check and without an error (the root is not signed, and no
consistency proof is asked for). -/
theorem C129_unchecked_violated (decode : Bytes → Option Root) (c : Client) (b : Bytes) (r : Root) (h : decode b = some r) :
    updateTreeSize decode c (some b) = (⟨some r, toInt64 r.size⟩, true) := by
  unfold updateTreeSize updateLogRoot getCurrentLogRoot
  simp only [Option.bind_some, h, Option.map_some, Option.getD_some]

/-! ### Concurrent calls -/

/-- Something that one of the answers of the schedule said, or that was there before. -/
def Told (decode : Bytes → Option Root) (sched : List (Nat × Option Bytes)) (r : Root) : Prop := ∃ p ∈ sched, p.2.bind decode = some r

structure Good (decode : Bytes → Option Root) (sched : List (Nat × Option Bytes)) (s : Sys) : Prop where
  root : ∀ r, s.client.root = some r → Told decode sched r
  size : s.client.size = 0 ∨ ∃ r, Told decode sched r ∧ s.client.size = toInt64 r.size
  got : ∀ r, Pc.got r ∈ s.calls → Told decode sched r
  read : Pc.read ∈ s.calls → s.client.root ≠ none
  write : ∀ n, Pc.write n ∈ s.calls → ∃ r, Told decode sched r ∧ n = r.size

theorem Told.more {decode : Bytes → Option Root} {sched sched' : List (Nat × Option Bytes)} {r : Root} (h : Told decode sched r) (hs : ∀ p ∈ sched, p ∈ sched') : Told decode sched' r := by
  obtain ⟨p, hp, he⟩ := h
  exact ⟨p, hs p hp, he⟩

theorem mem_set_or {α : Type} {l : List α} {i : Nat} {a b : α} (h : b ∈ l.set i a) : b = a ∨ b ∈ l := by
  rcases List.mem_or_eq_of_mem_set h with h | h
  · exact .inr h
  · exact .inl h

theorem Good.step {decode : Bytes → Option Root} {sched : List (Nat × Option Bytes)} {s : Sys} (h : Good decode sched s) (i : Nat) (a : Option Bytes) (hm : (i, a) ∈ sched) :
    Good decode sched (step decode s i a) := by
  have hset : ∀ (pc : Pc) (x : Pc), x ∈ s.calls.set i pc → x = pc ∨ x ∈ s.calls := fun pc x hx => mem_set_or hx
  unfold LogHead.step
  split
  · split
    · exact ⟨h.root, h.size, fun r hr => by rcases hset _ _ hr with e | e; · cases e
                                            · exact h.got r e,
        fun hr => by rcases hset _ _ hr with e | e; · cases e
                     · exact h.read e,
        fun n hr => by rcases hset _ _ hr with e | e; · cases e
                       · exact h.write n e⟩
    · rename_i r0 hr0
      refine ⟨h.root, h.size, fun r hr => ?_, fun hr => ?_, fun n hr => ?_⟩
      · rcases hset _ _ hr with e | e
        · injection e with e; subst e; exact ⟨(i, a), hm, hr0⟩
        · exact h.got r e
      · rcases hset _ _ hr with e | e
        · cases e
        · exact h.read e
      · rcases hset _ _ hr with e | e
        · cases e
        · exact h.write n e
  · rename_i r0 hr0
    have hgot := h.got r0 (List.mem_of_getElem? hr0)
    refine ⟨fun r hr => ?_, h.size, fun r hr => ?_, fun _ => by simp, fun n hr => ?_⟩
    · simp only [Option.some.injEq] at hr
      subst hr
      exact hgot
    · rcases hset _ _ hr with e | e
      · cases e
      · exact h.got r e
    · rcases hset _ _ hr with e | e
      · cases e
      · exact h.write n e
  · rename_i hr0
    refine ⟨h.root, h.size, fun r hr => ?_, fun hr => ?_, fun n hr => ?_⟩
    · rcases hset _ _ hr with e | e
      · cases e
      · exact h.got r e
    · rcases hset _ _ hr with e | e
      · cases e
      · exact h.read e
    · rcases hset _ _ hr with e | e
      · injection e with e
        have hne := h.read (List.mem_of_getElem? hr0)
        cases hc : s.client.root with
        | none => exact absurd hc hne
        | some r =>
          rw [hc] at e
          exact ⟨r, h.root r hc, e⟩
      · exact h.write n e
  · rename_i n0 hr0
    obtain ⟨r, hr, hn⟩ := h.write n0 (List.mem_of_getElem? hr0)
    refine ⟨h.root, .inr ⟨r, hr, by rw [hn]⟩, fun r hr => ?_, fun hr => ?_, fun n hr => ?_⟩
    · rcases hset _ _ hr with e | e
      · cases e
      · exact h.got r e
    · rcases hset _ _ hr with e | e
      · cases e
      · exact h.read e
    · rcases hset _ _ hr with e | e
      · cases e
      · exact h.write n e
  · exact h

/-- C129: whatever calls of `UpdateTreeSize` overlap, and in whatever order their steps happen, the root is that of one of the answers, and the size is that of one of the answers. -/
theorem C129_concurrent_partial (decode : Bytes → Option Root) (n : Nat) (sched : List (Nat × Option Bytes)) :
    (∀ r, (run decode ⟨newClient, List.replicate n .ask⟩ sched).client.root = some r → Told decode sched r) ∧
    ((run decode ⟨newClient, List.replicate n .ask⟩ sched).client.size = 0 ∨
      ∃ r, Told decode sched r ∧ (run decode ⟨newClient, List.replicate n .ask⟩ sched).client.size = toInt64 r.size) := by
  have hstart : Good decode sched ⟨newClient, List.replicate n .ask⟩ := by
    have hno : ∀ pc, pc ≠ Pc.ask → pc ∉ List.replicate n Pc.ask := fun pc h hm => h (List.eq_of_mem_replicate hm)
    exact ⟨fun r h => (by cases h), .inl rfl, fun r h => absurd h (hno _ (by simp)), fun h => absurd h (hno _ (by simp)), fun m h => absurd h (hno _ (by simp))⟩
  have key : ∀ (l : List (Nat × Option Bytes)) (s : Sys), (∀ p ∈ l, p ∈ sched) → Good decode sched s → Good decode sched (run decode s l) := by
    intro l
    induction l with
    | nil => intro s _ h; exact h
    | cons p l ih => intro s hl h; exact ih _ (fun q hq => hl q (List.mem_cons_of_mem _ hq)) (h.step p.1 p.2 (hl p (by simp)))
  have := key sched _ (fun p hp => hp) hstart
  exact ⟨this.root, this.size⟩

/-- For the examples: a root is written as its size and its hash. -/
def exDecode : Bytes → Option Root
  | n :: h => some ⟨n.toNat, h⟩
  | [] => none

/-- C129 is violated for two calls of `UpdateTreeSize` that overlap: both return without an error, and the client has the root of a tree with ten leaves and the size five. -/
theorem C129_race_violated : ∃ sched, ∃ s, run exDecode ⟨newClient, [.ask, .ask]⟩ sched = s ∧ s.calls = [.done, .done] ∧ s.client.root = some ⟨10, [2]⟩ ∧ s.client.size = 5 :=
  ⟨[(0, some [5, 1]), (0, none), (0, none), (1, some [10, 2]), (1, none), (1, none), (1, none), (0, none)], _, rfl, by decide +kernel, by decide +kernel, by decide +kernel⟩

example : lastRoot exDecode [some [5, 1], none, some [7, 3], some []] = some ⟨7, [3]⟩ ∧ (updates exDecode newClient [some [5, 1], none, some [7, 3], some []]).size = 7 := by decide +kernel

example : ∃ c, updateTreeSize exDecode ⟨some ⟨9, [1]⟩, 9⟩ (some [3, 3]) = (c, true) ∧ c.size = 3 := ⟨_, rfl, by decide +kernel⟩

/-! ## C129: the tree heads that are delivered with inclusion proofs -/

theorem filter_head {l : List Nat} {p : Nat → Bool} {i : Nat} {is : List Nat} (h : l.filter p = i :: is) : i ∈ l ∧ p i = true := by
  have : i ∈ l.filter p := by rw [h]; simp
  exact List.mem_filter.1 this

/-- An honest log's answer. -/
theorem serve_ok {H : Bytes → Bytes} {entries : List Bytes} {size : Int} {leaf : Bytes} {p : PoI} (h : serve H entries size leaf = .proof (.ok p)) :
    0 < size ∧ size.toNat ≤ entries.length ∧ RootOf H entries p.sth ∧
    ∃ (i : Nat) (d : Bytes) (rest : List (Option Proof)), (entries.take size.toNat)[i]? = some d ∧ hashLeaf H d = leaf ∧
      p.proofs = some ⟨i, auditPath H i ((entries.take size.toNat).map (hashLeaf H))⟩ :: rest := by
  unfold serve at h
  split at h
  · cases h
  rename_i h1
  split at h
  · cases h
  rename_i h2
  dsimp only at h
  generalize hne : List.filter _ _ = is at h
  cases is with
  | nil => cases h
  | cons i is =>
    dsimp only at h
    simp only [Reply.proof.injEq, Except.ok.injEq] at h
    subst h
    obtain ⟨_, hi⟩ := filter_head hne
    have hi := eq_of_beq hi
    rw [List.getElem?_map, Option.map_eq_some_iff] at hi
    obtain ⟨d, hd, hl⟩ := hi
    exact ⟨by omega, by omega, ⟨rfl, rfl⟩, i, d, _, hd, hl, rfl⟩

/-- C129: a proof that `FetchInclusions` delivers for a leaf verifies against the tree head it is delivered with, if at the time of the answer the log had the size the client has; the leaf may be asked
for many times, and the log may grow in between. -/
theorem C129_delivered_partial (H : Bytes → Bytes) (hH : ∀ x, (H x).length = 32) (log : Nat → List Bytes) (size : Int) (hs : size < 2 ^ 63) (d : Bytes) (fuel : Nat) (p : PoI)
    (h : fetch H log size d fuel = some (.ok p)) (hsize : (p.sth.size : Int) = size) : verifyInclusionByHash H p.sth (hashLeaf H d) p.proofs = .accepted := by
  obtain ⟨j, hj | ⟨e, he, _⟩⟩ := LogClient.C71_query_sound _ _ _ _ _ h
  · obtain ⟨h0, h1, hr, i, d', rest, hi, hd, hp⟩ := serve_ok hj
    have hsz := hr.1
    have ht : (log j).take size.toNat = log j := List.take_of_length_le (by omega)
    rw [ht] at hi hp
    rw [hp, ← hd]
    exact C106_honest H hH (log j) p.sth hr (by omega) i d' hi rest
  · cases he

/-- C129: in any case it verifies against the root of the first `size` entries, which is the one the client has from `UpdateTreeSize` if the log is honest. -/
theorem C129_own_root (H : Bytes → Bytes) (hH : ∀ x, (H x).length = 32) (log : Nat → List Bytes) (size : Int) (hs : size < 2 ^ 63) (d : Bytes) (fuel : Nat) (p : PoI)
    (h : fetch H log size d fuel = some (.ok p)) (before : List Bytes) (hb : (before.length : Int) = size) (hg : ∀ i, before <+: log i) (r : Root) (hr : RootOf H before r) :
    verifyInclusionByHash H r (hashLeaf H d) p.proofs = .accepted := by
  obtain ⟨j, hj | ⟨e, he, _⟩⟩ := LogClient.C71_query_sound _ _ _ _ _ h
  · obtain ⟨h0, h1, _, i, d', rest, hi, hd, hp⟩ := serve_ok hj
    obtain ⟨s, hs'⟩ := hg j
    have ht : (log j).take size.toNat = before := by rw [← hs', show size.toNat = before.length by omega, List.take_left]
    rw [ht] at hi hp
    rw [hp, ← hd]
    exact C106_honest H hH before r hr (by omega) i d' hi rest
  · cases he

/-- C129 is violated if the log has grown since the client's last `UpdateTreeSize`: for an entry of an honest log `FetchInclusions` delivers, without an error, a proof that does not verify against the
tree head it is delivered with. -/
theorem C129_delivered_violated : ∃ (size : Int) (d : Bytes) (p : PoI), (∀ x, (toy x).length = 32) ∧ size = ((toyLog.take 3).length : Int) ∧ d ∈ toyLog.take 3 ∧
    fetch toy (fun _ => toyLog) size d 1 = some (.ok p) ∧ RootOf toy toyLog p.sth ∧ verifyInclusionByHash toy p.sth (hashLeaf toy d) p.proofs = .refused :=
  ⟨3, [2], _, toy_32, by decide, by decide, rfl, ⟨rfl, rfl⟩, by decide +kernel⟩

example : ∃ p, fetch toy (fun _ => toyLog) 5 [2] 1 = some (.ok p) ∧ (p.sth.size : Int) = 5 := ⟨_, rfl, by decide +kernel⟩

/-! ## C130: a client that checks every new root -/

/-- All strings that are hashed for the roots of a history of logs and for checking each step. -/
def auditInputs (H : Bytes → Bytes) : List Bytes → List (List Bytes × List Bytes) → List Bytes
  | old, [] => logInputs H old
  | old, (new, c) :: l => logInputs H old ++ logInputs H new ++ consistencyInputs H old.length new.length c (mth H (old.map (hashLeaf H))) ++ auditInputs H new l

theorem collision_more {H : Bytes → Bytes} {xs ys : List Bytes} (h : Collision H xs) (hs : ∀ x ∈ xs, x ∈ ys) : Collision H ys := by
  obtain ⟨x, hx, y, hy, hne, he⟩ := h
  exact ⟨x, hs x hx, y, hs y hy, hne, he⟩

/-- Each entry list is a prefix of all later ones. -/
def Grows (old : List Bytes) (later : List (List Bytes)) : Prop := (old :: later).Pairwise (· <+: ·)

/-- C130: a client that starts from the root of a log and accepts every further root only after `VerifyRoot` accepted it has seen, whatever the log answers and however often it is asked, only logs that grew:
each has all entries of every earlier one at their places; or two of the strings that were hashed have the same hash. The root it trusts in the end is the last one. -/
theorem C130_audit (H : Bytes → Bytes) (hH : ∀ x, (H x).length = 32) : ∀ (hist : List (List Bytes × List Bytes)) (roots : List Root) (old : List Bytes) (t r : Root), RootOf H old t →
    List.Forall₂ (fun e r => RootOf H e.1 r) hist roots → audit H t (roots.zip (hist.map (·.2))) = some r →
    RootOf H ((old :: hist.map (·.1)).getLast (by simp)) r ∧ (Grows old (hist.map (·.1)) ∨ Collision H (auditInputs H old hist))
  | [], roots, old, t, r, ht, hr, h => by
    cases hr
    simp only [List.map_nil, List.zip_nil_right, audit, Option.some.injEq] at h
    subst h
    exact ⟨ht, .inl (by unfold Grows; simp)⟩
  | (new, c) :: hist, roots, old, t, r, ht, hr, h => by
    cases hr with
    | @cons _ n _ roots hn hr =>
      simp only [List.map_cons, List.zip_cons_cons, audit] at h
      cases hv : verifyRoot H (some t) (some n) c with
      | none => rw [hv] at h; cases h
      | some r' =>
        rw [hv] at h
        obtain ⟨rfl, hp⟩ := C107_prefix H hH old new t n r' ht hn c hv
        obtain ⟨i1, i2⟩ := C130_audit H hH hist roots new r' r hn hr h
        refine ⟨by simpa using i1, ?_⟩
        rcases hp with hp | hc
        · rcases i2 with hg | hc
          · left
            unfold Grows at hg ⊢
            rw [List.map_cons, List.pairwise_cons]
            refine ⟨?_, hg⟩
            intro e he
            rcases List.mem_cons.1 he with rfl | he
            · exact hp
            · exact hp.trans ((List.pairwise_cons.1 hg).1 e he)
          · exact .inr (collision_more hc (fun x hx => by unfold auditInputs; exact List.mem_append_right _ hx))
        · exact .inr (collision_more hc (fun x hx => by unfold auditInputs; exact List.mem_append_left _ hx))

/-- C130: so a log that shows the client one entry at an index and later another is found out: with the second root the check fails, for every proof. -/
theorem C130_rewritten (H : Bytes → Bytes) (hH : ∀ x, (H x).length = 32) (hist : List (List Bytes × List Bytes)) (roots : List Root) (old : List Bytes) (t : Root) (ht : RootOf H old t)
    (hr : List.Forall₂ (fun e r => RootOf H e.1 r) hist roots) (hc : ¬ Collision H (auditInputs H old hist))
    (i : Nat) (d : Bytes) (hd : old[i]? = some d) (e : List Bytes × List Bytes) (he : e ∈ hist) (hx : e.1[i]? ≠ some d) :
    audit H t (roots.zip (hist.map (·.2))) = none := by
  cases h : audit H t (roots.zip (hist.map (·.2))) with
  | none => rfl
  | some r =>
    obtain ⟨_, hg | hg⟩ := C130_audit H hH hist roots old t r ht hr h
    · unfold Grows at hg
      obtain ⟨s, hs⟩ := (List.pairwise_cons.1 hg).1 e.1 (List.mem_map.2 ⟨e, he, rfl⟩)
      refine absurd ?_ hx
      rw [← hs, List.getElem?_append_left (List.getElem?_eq_some_iff.1 hd).1]
      exact hd
    · exact absurd hg hc

/-- The states of a log that grows, with the consistency proofs of RFC 6962. -/
def honestSteps (H : Bytes → Bytes) : List Bytes → List (List Bytes) → List (Root × List Bytes)
  | _, [] => []
  | old, add :: l => (⟨(old ++ add).length, mth H ((old ++ add).map (hashLeaf H))⟩, subProof H old.length true ((old ++ add).map (hashLeaf H))) :: honestSteps H (old ++ add) l

/-- C130: an honest log is never refused, however it grows. -/
theorem C130_honest (H : Bytes → Bytes) : ∀ (adds : List (List Bytes)) (old : List Bytes) (t : Root), old ≠ [] → RootOf H old t →
    ∃ r, audit H t (honestSteps H old adds) = some r ∧ RootOf H (old ++ adds.flatten) r
  | [], old, t, _, ht => ⟨t, rfl, by simpa using ht⟩
  | add :: adds, old, t, h0, ht => by
    have hn : RootOf H (old ++ add) ⟨(old ++ add).length, mth H ((old ++ add).map (hashLeaf H))⟩ := ⟨rfl, rfl⟩
    have hv := C107_honest H old (old ++ add) h0 (List.prefix_append _ _) t _ ht hn
    obtain ⟨r, hr, hr'⟩ := C130_honest H adds (old ++ add) _ (by simp [h0]) hn
    refine ⟨r, ?_, by simpa using hr'⟩
    unfold honestSteps audit
    rw [hv]
    exact hr

/-- C130: a client that starts from the root of the empty log accepts any root as the next, without a proof: the empty log is the beginning of every log, so that this first root is one to choose. -/
theorem C130_from_empty (H : Bytes → Bytes) (t n : Root) (c : List Bytes) (h : t.size = 0) : audit H t [(n, c)] = some n := by
  unfold audit verifyRoot LogVerifier.verifyRoot
  dsimp only
  rw [if_neg (by simp [h])]
  rfl

example : audit toy (toyRoot 2) (honestSteps toy (toyLog.take 2) [[[3, 4]], [], [[5], [6]]]) = some (toyRoot 5) := by decide +kernel

/-- No two strings collide in this history, and a log with another second entry is refused. -/
example : ¬ Collision toy (auditInputs toy (toyLog.take 2) [(toyLog.take 3, subProof toy 2 true ((toyLog.take 3).map (hashLeaf toy))), (toyLog, subProof toy 3 true (toyLog.map (hashLeaf toy)))]) := by
  rintro ⟨x, hx, y, hy, hne, he⟩
  have key : ∀ x ∈ auditInputs toy (toyLog.take 2) [(toyLog.take 3, subProof toy 2 true ((toyLog.take 3).map (hashLeaf toy))), (toyLog, subProof toy 3 true (toyLog.map (hashLeaf toy)))],
      ∀ y ∈ auditInputs toy (toyLog.take 2) [(toyLog.take 3, subProof toy 2 true ((toyLog.take 3).map (hashLeaf toy))), (toyLog, subProof toy 3 true (toyLog.map (hashLeaf toy)))], toy x = toy y → x = y := by
    decide +kernel
  exact hne (key x hx y hy he)

end Fpki.LogHead
