import Verif.Lemmas.Coalesce
import Verif.Props.DbHist

/-!
# C112: coalescing with its workers, failures and crashes
-/
namespace Fpki.Coalesce
open Fpki.Db

variable {fuel chunk : Nat} {db0 : DB}

/-! ## Specification -/

/-- `d` waits to be coalesced. -/
def Waiting (db : DB) (d : Bytes) : Prop := (d, false) ∈ db.dirty

/-- `r` is the row that its domain must have: the IDs of its certificates and policies with all their ancestors (`IsAgg`, see C22), at least one. -/
def Right (db : DB) (r : Payload) : Prop :=
  IsAgg db.certs db.domainCerts r.domain r.certIds ∧ IsAgg db.policies db.domainPolicies r.domain r.policyIds ∧ (r.certIds ≠ none ∨ r.policyIds ≠ none)

theorem right_iff {db : DB} {r : Payload} : Right db r ↔ GoodRow db r := and_assoc.symm

/-! ## C112 -/

/-- C112: at every moment (whatever the order in which the 32 workers execute their statements, whatever fails, and wherever runs were ended before), certificates, policies and links are as they were; a domain that was not waiting keeps its rows; a domain that waited and is now marked as coalesced has exactly the right rows; a domain that still waits has only rows from before or rows with the right columns (both may be NULL), and is not missing in `domains` if it has a certificate or policy. -/
theorem C112_always_partial (hk : Keys db0) (hf : db0.certs.length < fuel) (hf' : db0.policies.length < fuel) (hc : 0 < chunk) {db : DB} {w : Workers} (h : Reach fuel chunk db0 db w) :
    db.certs = db0.certs ∧ db.domainCerts = db0.domainCerts ∧ db.policies = db0.policies ∧ db.domainPolicies = db0.domainPolicies ∧
    db.dirty.map Prod.fst = db0.dirty.map Prod.fst ∧ (∀ d, Waiting db d → Waiting db0 d) ∧
    (∀ r, ¬ Waiting db0 r.domain → (r ∈ db.payloads ↔ r ∈ db0.payloads)) ∧ (∀ x, ¬ Waiting db0 x.1 → (x ∈ db.domains ↔ x ∈ db0.domains)) ∧
    (∀ r, Waiting db0 r.domain → ¬ Waiting db r.domain → (r ∈ db.payloads ↔ Right db r)) ∧
    (∀ x, Waiting db0 x.1 → ¬ Waiting db x.1 → (x ∈ db.domains ↔ x ∈ db0.domains ∧ ∃ r ∈ db.payloads, r.domain = x.1)) ∧
    (∀ r, Waiting db r.domain → r ∈ db.payloads → r ∈ db0.payloads ∨ (IsAgg db.certs db.domainCerts r.domain r.certIds ∧ IsAgg db.policies db.domainPolicies r.domain r.policyIds)) ∧
    (∀ x, Waiting db x.1 → x ∈ db0.domains → (∃ r, r.domain = x.1 ∧ Right db r) → x ∈ db.domains) := by
  have hi := reach_inv hk hf hf' hc h
  have hg : ∀ r, Right db r ↔ GoodRow db0 r := fun r => by
    unfold Right GoodRow IsPayload
    rw [hi.certs, hi.domainCerts, hi.policies, hi.domainPolicies, and_assoc]
  refine ⟨hi.certs, hi.domainCerts, hi.policies, hi.domainPolicies, hi.dirtyKeys, hi.waiting, fun r hr => ((hi.dom _).fresh hr).1 r rfl, fun x hx => ((hi.dom _).fresh hx).2 x rfl,
    fun r h1 h2 => (((hi.dom _).done ⟨h1, h2⟩).1 r rfl).trans (hg r).symm, fun x h1 h2 => ?_, fun r hr hm => ?_, fun x hx hm hr => ?_⟩
  · have hd := (hi.dom x.1).done ⟨h1, h2⟩
    rw [hd.2 x rfl]
    refine and_congr_right (fun _ => ⟨fun ⟨r, e, g⟩ => ⟨r, (hd.1 r e).2 g, e⟩, fun ⟨r, m, e⟩ => ⟨r, e, (hd.1 r e).1 m⟩⟩)
  · rw [hi.certs, hi.domainCerts, hi.policies, hi.domainPolicies]
    exact ((hi.dom _).wait hr).1 r rfl hm
  · obtain ⟨r, e, g⟩ := hr
    exact ((hi.dom _).wait hx).2.2 x rfl hm ⟨r, e, (hg r).1 g⟩

/-- C112: if a run returns nil, the tables are as after an undisturbed run (C22), whatever happened in the runs before it. -/
theorem C112_nil_partial (hk : Keys db0) (hf : db0.certs.length < fuel) (hf' : db0.policies.length < fuel) (hc : 0 < chunk) {db : DB} {w : Workers} (h : Reach fuel chunk db0 db w) (hn : ReturnsNil w) :
    (∀ r, Waiting db0 r.domain → (r ∈ db.payloads ↔ Right db0 r)) ∧ (∀ r, ¬ Waiting db0 r.domain → (r ∈ db.payloads ↔ r ∈ db0.payloads)) ∧
    (∀ x, x ∈ db.domains ↔ x ∈ db0.domains ∧ (Waiting db0 x.1 → ∃ r ∈ db.payloads, r.domain = x.1)) ∧
    db.dirty = db0.dirty.map (fun r => (r.1, true)) ∧
    db.certs = db0.certs ∧ db.domainCerts = db0.domainCerts ∧ db.policies = db0.policies ∧ db.domainPolicies = db0.domainPolicies := by
  have hi := reach_inv hk hf hf' hc h
  have hall : ∀ d, (d, false) ∉ db.dirty := fun d => hi.ended (shardOf d) (hn _ (shardOf_lt d)) d rfl
  refine ⟨fun r hr => (((hi.dom _).done ⟨hr, hall _⟩).1 r rfl).trans right_iff.symm, fun r hr => ((hi.dom _).fresh hr).1 r rfl, fun x => ?_, ?_, hi.certs, hi.domainCerts, hi.policies, hi.domainPolicies⟩
  · by_cases hx : Waiting db0 x.1
    · have hd := (hi.dom x.1).done ⟨hx, hall _⟩
      rw [hd.2 x rfl]
      refine and_congr_right (fun _ => ⟨fun ⟨r, e, g⟩ _ => ⟨r, (hd.1 r e).2 g, e⟩, fun g => ?_⟩)
      obtain ⟨r, m, e⟩ := g hx
      exact ⟨r, e, (hd.1 r e).1 m⟩
    · rw [((hi.dom x.1).fresh hx).2 x rfl]
      exact ⟨fun g => ⟨g, fun g => absurd g hx⟩, fun g => g.1⟩
  · have : db.dirty = (db.dirty.map Prod.fst).map (fun d => (d, true)) := by
      rw [List.map_map]
      conv_lhs => rw [← List.map_id db.dirty]
      apply List.map_congr_left
      rintro ⟨d, b⟩ hr
      cases b with
      | true => rfl
      | false => exact absurd hr (hall d)
    rw [this, hi.dirtyKeys, List.map_map]
    rfl

/-! ### A run ends -/

/-- `n` steps of one run. -/
inductive Steps (fuel chunk : Nat) : Nat → DB → Workers → DB → Workers → Prop where
  | nil (db w) : Steps fuel chunk 0 db w db w
  | exec {n db w db1 pc db2 w2} (p : Nat) (hp : p < 32) (he : exec fuel chunk p (w p) db = some (db1, pc)) (h : Steps fuel chunk n db1 (w.put p pc) db2 w2) : Steps fuel chunk (n + 1) db w db2 w2
  | fail {n db w db2 w2} (p : Nat) (hp : p < 32) (h1 : w p ≠ .ended) (h2 : w p ≠ .failed) (h : Steps fuel chunk n db (w.put p .failed) db2 w2) : Steps fuel chunk (n + 1) db w db2 w2

/-- How far a worker is from the end of a call. -/
def rank : Pc → Nat
  | .count => 5
  | .replace => 4
  | .delPayloads => 3
  | .delDomains => 2
  | .mark => 1
  | .ended => 0
  | .failed => 0

theorem sum_put (w : Workers) (p : Nat) (pc : Pc) : ∀ l : List Nat, l.Nodup → p ∈ l → (l.map (fun q => rank (w.put p pc q))).sum + rank (w p) = (l.map (fun q => rank (w q))).sum + rank pc
  | [], _, h => by cases h
  | a :: l, hn, h => by
    rw [List.nodup_cons] at hn
    rw [List.map_cons, List.map_cons, List.sum_cons, List.sum_cons]
    by_cases e : a = p
    · subst e
      have : l.map (fun q => rank (w.put a pc q)) = l.map (fun q => rank (w q)) := by
        refine List.map_congr_left (fun q hq => ?_)
        unfold Workers.put
        rw [if_neg (fun e => hn.1 (by rw [← e]; exact hq))]
      rw [this]
      have : w.put a pc a = pc := by unfold Workers.put; rw [if_pos rfl]
      rw [this]
      omega
    · have ih := sum_put w p pc l hn.2 (by
        rcases List.mem_cons.1 h with g | g
        · exact absurd g.symm e
        · exact g)
      have : w.put p pc a = w a := by unfold Workers.put; rw [if_neg e]
      rw [this]
      omega

/-- What is left to do. -/
def measure (db : DB) (w : Workers) : Nat := 6 * waitingCount db + ((List.range 32).map (fun q => rank (w q))).sum

theorem measure_put {db db' : DB} {w : Workers} {p : Nat} {pc : Pc} (hp : p < 32) (h : 6 * waitingCount db' + rank pc < 6 * waitingCount db + rank (w p)) : measure db' (w.put p pc) < measure db w := by
  have := sum_put w p pc (List.range 32) List.nodup_range (List.mem_range.2 hp)
  unfold measure
  omega

theorem exec_measure {db db' : DB} {w : Workers} {p : Nat} {pc : Pc} (hi : Inv chunk db0 db w) (hp : p < 32) (he : exec fuel chunk p (w p) db = some (db', pc)) : measure db' (w.put p pc) < measure db w := by
  refine measure_put hp ?_
  cases hw : w p with
  | count =>
    rw [hw] at he
    simp only [exec, Option.some.injEq, Prod.mk.injEq] at he
    obtain ⟨rfl, rfl⟩ := he
    split <;> simp [rank]
  | replace =>
    rw [hw] at he
    unfold exec stReplace at he
    dsimp only at he
    cases hm : (chunkOf db p chunk).mapM (payloadOf fuel db) with
    | none => rw [hm] at he; cases he
    | some rows => rw [hm] at he; cases he; simp [rank, waitingCount]
  | delPayloads => rw [hw] at he; cases he; simp [rank, waitingCount, stDelPayloads]
  | delDomains => rw [hw] at he; cases he; simp [rank, waitingCount, stDelDomains]
  | mark =>
    have hb := hi.busy p (by rw [hw]; simp) (by rw [hw]; simp) (by rw [hw]; simp)
    rw [hw] at he
    cases he
    have : waitingCount (stMark chunk p db) < waitingCount db := by
      unfold waitingCount stMark
      dsimp only
      apply countP_map_lt
      · intro r
        split <;> simp
      · obtain ⟨d, hd⟩ := List.exists_mem_of_ne_nil _ hb
        exact ⟨(d, false), (mem_chunkOf hd).1, rfl, by simp [hd]⟩
    simp only [rank]
    omega
  | ended => rw [hw] at he; cases he
  | failed => rw [hw] at he; cases he

/-- C112: a run has at most 6 steps for each waiting domain and 160 more, with or without failures, and as long as a worker has not returned its next statement can be executed: every run returns. -/
theorem C112_ends (hk : Keys db0) (hf : db0.certs.length < fuel) (hf' : db0.policies.length < fuel) (hc : 0 < chunk) {db : DB} {w : Workers} (h : Reach fuel chunk db0 db w) :
    (∀ n db' w', Steps fuel chunk n db w db' w' → n ≤ 6 * db.dirty.length + 160) ∧ ∀ p < 32, w p ≠ .ended → w p ≠ .failed → ∃ db' pc, exec fuel chunk p (w p) db = some (db', pc) := by
  have hi := reach_inv hk hf hf' hc h
  refine ⟨fun n db' w' hs => ?_, fun p _ h1 h2 => ?_⟩
  · have key : ∀ n db w db' w', Inv chunk db0 db w → Steps fuel chunk n db w db' w' → n ≤ measure db w := by
      intro n db w db' w' hi hs
      induction hs with
      | nil => exact Nat.zero_le _
      | exec p hp he _ ih =>
        have := exec_measure hi hp he
        have := ih (hi.of_exec hk hf hf' hc he)
        omega
      | @fail n db w db2 w2 p hp h1 h2 _ ih =>
        have : measure db (w.put p .failed) < measure db w := by
          refine measure_put hp ?_
          cases hw : w p with
          | ended => exact absurd hw h1
          | failed => exact absurd hw h2
          | _ => simp [rank]
        have := ih hi.fail
        omega
    have h1 := key n db w db' w' hi hs
    have h2 : waitingCount db ≤ db.dirty.length := List.countP_le_length
    have h3 : ∀ l : List Nat, (l.map (fun q => rank (w q))).sum ≤ 5 * l.length := by
      intro l
      induction l with
      | nil => simp
      | cons a l ih =>
        rw [List.map_cons, List.sum_cons, List.length_cons]
        have : rank (w a) ≤ 5 := by cases w a <;> simp [rank]
        omega
    have h4 := h3 (List.range 32)
    rw [List.length_range] at h4
    unfold measure at h1
    omega
  · obtain ⟨db', pc, e, _⟩ := hi.exec (p := p) hk hf hf' hc h1 h2
    exact ⟨db', pc, e⟩

/-- C112: after any failures and ends of the process, a new run whose statements do not fail returns nil; it has then marked every domain. -/
theorem C112_recovers (hk : Keys db0) (hf : db0.certs.length < fuel) (hf' : db0.policies.length < fuel) (hc : 0 < chunk) {db : DB} {w : Workers} (h : Reach fuel chunk db0 db w) :
    ∃ db' w', Reach fuel chunk db0 db' w' ∧ ReturnsNil w' ∧ (∃ n, Steps fuel chunk n db (start db) db' w') ∧ ∀ d, ¬ Waiting db' d := by
  have key : ∀ (m : Nat) (db : DB) (w : Workers), measure db w ≤ m → Reach fuel chunk db0 db w → (∀ p, w p ≠ .failed) →
      ∃ db' w', Reach fuel chunk db0 db' w' ∧ ReturnsNil w' ∧ ∃ n, Steps fuel chunk n db w db' w' := by
    intro m
    induction m with
    | zero =>
      intro db w hm hr hw
      refine ⟨db, w, hr, fun p hp => ?_, 0, .nil db w⟩
      apply Classical.byContradiction
      intro hne
      obtain ⟨db', pc, e, _⟩ := (reach_inv hk hf hf' hc hr).exec (p := p) hk hf hf' hc hne (hw p)
      have := exec_measure (reach_inv hk hf hf' hc hr) hp e
      omega
    | succ m ih =>
      intro db w hm hr hw
      by_cases hall : ReturnsNil w
      · exact ⟨db, w, hr, hall, 0, .nil db w⟩
      · unfold ReturnsNil at hall
        simp only [Classical.not_forall] at hall
        obtain ⟨p, hp, hne⟩ := hall
        obtain ⟨db', pc, e, _⟩ := (reach_inv hk hf hf' hc hr).exec (p := p) hk hf hf' hc hne (hw p)
        have hlt := exec_measure (reach_inv hk hf hf' hc hr) hp e
        have hpc : pc ≠ .failed := by
          intro hpc
          subst hpc
          unfold exec at e
          split at e
          · simp only [Option.some.injEq, Prod.mk.injEq] at e
            have := e.2
            split at this <;> cases this
          · rw [Option.map_eq_some_iff] at e
            obtain ⟨_, _, e⟩ := e
            cases e
          all_goals cases e
        obtain ⟨db2, w2, h1, h2, n, h3⟩ := ih db' (w.put p pc) (by omega) (.step p hp hr e) (fun q => by
          unfold Workers.put
          split
          · exact hpc
          · exact hw q)
        exact ⟨db2, w2, h1, h2, n + 1, .exec p hp e h3⟩
  obtain ⟨db', w', h1, h2, h3⟩ := key (measure db (start db)) db (start db) (Nat.le_refl _) (.again h) (fun p => by unfold start; split <;> simp)
  exact ⟨db', w', h1, h2, h3, fun d => (reach_inv hk hf hf' hc h1).ended (shardOf d) (h2 _ (shardOf_lt d)) d rfl⟩

/-- C112: the statements of a call, executed without others in between, are the call of C22. -/
theorem C112_call (fuel chunk p : Nat) (db : DB) (h : (chunkOf db p chunk).length ≠ 0) :
    (stReplace fuel chunk p db).map (fun db => stMark chunk p (stDelDomains chunk p (stDelPayloads chunk p db))) = (calcDirtyDomains fuel db p chunk).map Prod.fst := by
  unfold calcDirtyDomains stReplace
  dsimp only
  rw [if_neg h]
  cases (chunkOf db p chunk).mapM (payloadOf fuel db) with
  | none => rfl
  | some rows => rfl

theorem sum_range_count (l : List (Bytes × Bool)) (g : Bytes × Bool → Bool) : ∀ n, ((List.range n).map (fun p => l.countP (fun r => shardOf r.1 == p && g r))).sum = l.countP (fun r => decide (shardOf r.1 < n) && g r)
  | 0 => by simp
  | n + 1 => by
    rw [List.range_succ, List.map_append, List.sum_append, sum_range_count l g n]
    simp only [List.map_cons, List.map_nil, List.sum_cons, List.sum_nil, Nat.add_zero]
    induction l with
    | nil => rfl
    | cons a l ih =>
      simp only [List.countP_cons]
      have : (if (decide (shardOf a.1 < n + 1) && g a) = true then 1 else 0) = (if (decide (shardOf a.1 < n) && g a) = true then 1 else 0) + (if (shardOf a.1 == n && g a) = true then 1 else 0) := by
        cases g a
        · simp
        · rcases Nat.lt_trichotomy (shardOf a.1) n with hl | hl | hl
          · simp [hl, Nat.lt_succ_of_lt hl, Nat.ne_of_lt hl]
          · simp [hl]
          · have h1 : ¬ shardOf a.1 < n + 1 := by omega
            have h2 : ¬ shardOf a.1 < n := by omega
            have h3 : shardOf a.1 ≠ n := by omega
            simp [h1, h2, h3]
      omega

/-- C112: the counts over the partitions are those of the whole table: `DirtyCount` is the number of dirty domains, `DirtyCountNonCoalesced` that of the waiting ones. -/
theorem C112_counts (db : DB) : dirtyCount db = db.dirty.length ∧ countNonCoalesced db = (db.dirty.filter (fun r => !r.2)).length := by
  constructor
  · unfold dirtyCount
    have := sum_range_count db.dirty (fun _ => true) 32
    simp only [Bool.and_true] at this
    rw [this, List.countP_eq_length]
    intro r _
    simpa using shardOf_lt r.1
  · unfold countNonCoalesced
    rw [sum_range_count db.dirty (fun r => !r.2) 32, ← List.countP_eq_length_filter]
    refine List.countP_congr (fun r _ => ?_)
    simp [shardOf_lt r.1]

/-! ### Two runs at the same time -/

theorem mem_stMark {p : Nat} {db : DB} {d : Bytes} : (d, false) ∈ (stMark chunk p db).dirty ↔ (d, false) ∈ db.dirty ∧ d ∉ chunkOf db p chunk := by
  unfold stMark
  dsimp only
  rw [List.mem_map]
  constructor
  · rintro ⟨⟨e, b⟩, h1, h2⟩
    split at h2
    · cases h2
    · next hn => cases h2; exact ⟨h1, by simpa using hn⟩
  · rintro ⟨h1, h2⟩
    exact ⟨(d, false), h1, by simp [h2]⟩

theorem stReplace_other {p : Nat} {db db' : DB} (h : stReplace fuel chunk p db = some db') {r : Payload} (hr : r.domain ∉ chunkOf db p chunk) :
    (r ∈ db'.payloads ↔ r ∈ db.payloads) ∧ db'.dirty = db.dirty := by
  unfold stReplace at h
  cases hm : (chunkOf db p chunk).mapM (payloadOf fuel db) with
  | none => rw [hm] at h; cases h
  | some rows =>
    rw [hm] at h
    cases h
    refine ⟨?_, rfl⟩
    have hdom : ∀ (l : List Bytes) (rows : List Payload), l.mapM (payloadOf fuel db) = some rows → ∀ x ∈ rows, x.domain ∈ l := by
      intro l
      induction l with
      | nil => intro rows h x hx; cases h; cases hx
      | cons a l ih =>
        intro rows h x hx
        rw [List.mapM_cons] at h
        cases h1 : payloadOf fuel db a with
        | none => rw [h1] at h; cases h
        | some y =>
          cases h2 : l.mapM (payloadOf fuel db) with
          | none => rw [h1, h2] at h; cases h
          | some ys =>
            rw [h1, h2] at h
            cases h
            rcases List.mem_cons.1 hx with e | e
            · subst e
              unfold payloadOf at h1
              split at h1
              · cases h1; exact List.mem_cons_self
              · cases h1
            · exact List.mem_cons_of_mem _ (ih ys h2 x e)
    have key : ∀ (rows : List Payload) (t : List Payload), (∀ x ∈ rows, x.domain ≠ r.domain) → (r ∈ replaceInto Payload.domain t rows ↔ r ∈ t) := by
      intro rows
      induction rows with
      | nil => intro t _; rfl
      | cons a rows ih =>
        intro t ht
        unfold replaceInto at ih ⊢
        rw [List.foldl_cons, ih _ (fun x hx => ht x (List.mem_cons_of_mem _ hx)), List.mem_append, List.mem_filter]
        have ha := ht a List.mem_cons_self
        constructor
        · rintro (g | g)
          · exact g.1
          · rw [List.mem_singleton] at g; exact absurd (by rw [g]) ha
        · intro g
          exact Or.inl ⟨g, by simpa using fun e => ha e.symm⟩
    exact key rows db.payloads (fun x hx e => hr (by rw [← e]; exact hdom _ _ hm x hx))

/-- C112 does not hold for two runs at the same time (two processes, or a process started again while the procedure of the ended one still runs in the server): if a partition has more waiting domains than a chunk, run A stops before its last statement, run B executes a whole call, and A goes on, then the next chunk is marked as coalesced although its rows were never computed. -/
theorem C112_two_runs_violated (db a1 b1 : DB) (p : Nat) (hk : Keys db) (hc : 0 < chunk) (hmany : chunk < (db.dirty.filter (fun r => shardOf r.1 == p && !r.2)).length)
    (hA : stReplace fuel chunk p db = some a1) (hB : stReplace fuel chunk p (stDelDomains chunk p (stDelPayloads chunk p a1)) = some b1) :
    ∃ d, Waiting db d ∧ ¬ Waiting (stMark chunk p (stMark chunk p (stDelDomains chunk p (stDelPayloads chunk p b1)))) d ∧
      ∀ r, r.domain = d → (r ∈ (stMark chunk p (stMark chunk p (stDelDomains chunk p (stDelPayloads chunk p b1)))).payloads ↔ r ∈ db.payloads) := by
  have e1 : a1.dirty = db.dirty := by
    unfold stReplace at hA
    cases hm : (chunkOf db p chunk).mapM (payloadOf fuel db) with
    | none => rw [hm] at hA; cases hA
    | some rows => rw [hm] at hA; cases hA; rfl
  have e2 : b1.dirty = a1.dirty := by
    unfold stReplace at hB
    cases hm : (chunkOf (stDelDomains chunk p (stDelPayloads chunk p a1)) p chunk).mapM (payloadOf fuel (stDelDomains chunk p (stDelPayloads chunk p a1))) with
    | none => rw [hm] at hB; cases hB
    | some rows => rw [hm] at hB; cases hB; rfl
  have ca : chunkOf a1 p chunk = chunkOf db p chunk := chunkOf_congr e1 p
  have ca' : chunkOf (stDelDomains chunk p (stDelPayloads chunk p a1)) p chunk = chunkOf db p chunk := (chunkOf_congr rfl p).trans ca
  have cb : chunkOf b1 p chunk = chunkOf db p chunk := (chunkOf_congr e2 p).trans ca
  have cb' : chunkOf (stDelDomains chunk p (stDelPayloads chunk p b1)) p chunk = chunkOf db p chunk := (chunkOf_congr rfl p).trans cb
  generalize hm : stMark chunk p (stDelDomains chunk p (stDelPayloads chunk p b1)) = m
  have hmd : ∀ d, (d, false) ∈ m.dirty ↔ (d, false) ∈ db.dirty ∧ d ∉ chunkOf db p chunk := by
    intro d
    rw [← hm, mem_stMark, cb']
    show (d, false) ∈ b1.dirty ∧ _ ↔ _
    rw [e2, e1]
  have hne : chunkOf m p chunk ≠ [] := by
    intro hn
    have hnone := chunkOf_nil (db := m) (p := p) hc (by rw [hn]; rfl)
    have hsub : ∀ x ∈ (db.dirty.filter (fun r => shardOf r.1 == p && !r.2)).map Prod.fst, x ∈ chunkOf db p chunk := by
      intro x hx
      obtain ⟨⟨d, b⟩, h1, h2⟩ := List.mem_map.1 hx
      obtain ⟨h3, h4⟩ := List.mem_filter.1 h1
      simp only [Bool.and_eq_true, beq_iff_eq, Bool.not_eq_true'] at h4
      obtain ⟨h4, h5⟩ := h4
      subst h5 h2
      apply Classical.byContradiction
      intro hno
      exact hnone d h4 ((hmd d).2 ⟨h3, hno⟩)
    have hnd : ((db.dirty.filter (fun r => shardOf r.1 == p && !r.2)).map Prod.fst).Nodup :=
      List.Nodup.sublist (List.Sublist.map _ List.filter_sublist) (show (db.dirty.map Prod.fst).Nodup from hk.dirty)
    have hl := (List.subperm_of_subset hnd hsub).length_le
    rw [List.length_map] at hl
    have : (chunkOf db p chunk).length ≤ chunk := List.length_take_le _ _
    omega
  obtain ⟨d, hd⟩ := List.exists_mem_of_ne_nil _ hne
  have hw := (hmd d).1 (mem_chunkOf hd).1
  refine ⟨d, hw.1, fun h => (mem_stMark.1 h).2 hd, fun r hr => ?_⟩
  show r ∈ m.payloads ↔ _
  rw [← hm]
  show r ∈ (stDelPayloads chunk p b1).payloads ↔ _
  have hnot : r.domain ∉ chunkOf db p chunk := by rw [hr]; exact hw.2
  have keepDel : ∀ x : DB, chunkOf x p chunk = chunkOf db p chunk → (r ∈ (stDelPayloads chunk p x).payloads ↔ r ∈ x.payloads) := by
    intro x hx
    unfold stDelPayloads
    dsimp only
    rw [List.mem_filter, hx]
    simp [hnot]
  rw [keepDel b1 cb, (stReplace_other hB (by rw [ca']; exact hnot)).1]
  show r ∈ (stDelPayloads chunk p a1).payloads ↔ _
  rw [keepDel a1 ca, (stReplace_other hA hnot).1]

/-! ### Insertions during a run -/

/-- A domain with one certificate, waiting. -/
def oneDB : DB := { emptyDB with
  certs := [⟨[1], [], 90, [7]⟩]
  domains := [([100], [100])]
  domainCerts := [([100], [1])]
  dirty := [([100], false)] }

/-- after `REPLACE INTO domain_payloads` -/
def oneDB1 : DB := { oneDB with payloads := [⟨[100], some [1], none⟩] }

/-- after the insertion -/
def oneDB2 : DB := { oneDB1 with
  certs := [⟨[1], [], 90, [7]⟩, ⟨[2], [], 90, [8]⟩]
  domainCerts := [([100], [1]), ([100], [2])] }

/-- after `UPDATE dirty` -/
def oneDB3 : DB := { oneDB2 with dirty := [([100], true)] }

theorem oneDB_chunk (db : DB) (h : db.dirty = [([100], false)]) : chunkOf db 12 1024 = [[100]] := by
  unfold chunkOf
  rw [h]
  have : ([([100], false)] : List (Bytes × Bool)).filter (fun r => shardOf r.1 == 12 && !r.2) = [([100], false)] := by decide
  rw [this]
  simp

theorem oneDB_payload : payloadOf 9 oneDB [100] = some ⟨[100], some [1], none⟩ := by
  have h1 : closureLoop oneDB.certs 9 (linked oneDB.certs oneDB.domainCerts [100]) (linked oneDB.certs oneDB.domainCerts [100]) = some [⟨[1], [], 90, [7]⟩] := by decide
  have h2 : closureLoop oneDB.policies 9 (linked oneDB.policies oneDB.domainPolicies [100]) (linked oneDB.policies oneDB.domainPolicies [100]) = some [] := by decide
  unfold payloadOf aggregate
  dsimp only
  rw [h1, h2]
  simp [glue, Ids.idsToBytes]

theorem oneDB_chunks (p : Nat) : (chunkOf oneDB3 p 1024).length = 0 := by
  unfold chunkOf
  have : oneDB3.dirty.filter (fun r => shardOf r.1 == p && !r.2) = [] := by simp [oneDB3]
  rw [this]
  simp

/-- C112 does not hold if certificates are inserted during a run: between `REPLACE INTO domain_payloads` and `UPDATE dirty` another process inserts a second certificate of the same domain and marks it as dirty; the run marks it as coalesced, finds nothing more to do and returns nil, and the payload does not have the new certificate. -/
theorem C112_writer_violated : ∃ (st : List (DB → DB)) (db1 db2 : DB), insertSteps id [[[100]]] [[2]] [none] [90] [[8]] = some st ∧
    stReplace 9 1024 12 oneDB = some db1 ∧ db2 = stMark 1024 12 (stDelDomains 1024 12 (stDelPayloads 1024 12 (runSteps st db1))) ∧
    (∀ p < 32, exec 9 1024 p .count db2 = some (db2, .ended)) ∧ (∀ d, ¬ Waiting db2 d) ∧
    ([100], [2]) ∈ db2.domainCerts ∧ (⟨[2], [], 90, [8]⟩ : Cert) ∈ db2.certs ∧ db2.payloads = [⟨[100], some [1], none⟩] ∧ ∀ r ∈ db2.payloads, ¬ Right db2 r := by
  refine ⟨_, oneDB1, oneDB3, rfl, ?_, ?_, fun p _ => ?_, fun d hd => ?_, by decide, by decide, rfl, fun r hr hR => ?_⟩
  · unfold stReplace
    rw [oneDB_chunk oneDB rfl, List.mapM_cons, oneDB_payload]
    rfl
  · have h1 : runSteps [fun db => { db with certs := insertIgnore Cert.id db.certs [⟨[2], [], 90, [8]⟩] },
        fun db => { db with dirty := replaceInto Prod.fst db.dirty [([100], false)] },
        fun db => { db with domains := insertIgnore Prod.fst db.domains [([100], [100])] },
        fun db => { db with domainCerts := insertIgnore id db.domainCerts [([100], [2])] }] oneDB1 = oneDB2 := by decide
    have h2 : stDelPayloads 1024 12 oneDB2 = oneDB2 := by
      unfold stDelPayloads; rw [oneDB_chunk oneDB2 rfl]; decide
    have h3 : stDelDomains 1024 12 oneDB2 = oneDB2 := by
      unfold stDelDomains; rw [oneDB_chunk oneDB2 rfl]; decide
    have h4 : stMark 1024 12 oneDB2 = oneDB3 := by
      unfold stMark; rw [oneDB_chunk oneDB2 rfl]; decide
    rw [← h4]
    conv_lhs => rw [← h3, ← h2, ← h1]
    rfl
  · unfold exec
    dsimp only
    rw [if_pos (oneDB_chunks p)]
  · unfold Waiting at hd
    simp [oneDB3] at hd
  · have e : r = ⟨[100], some [1], none⟩ := by simpa [oneDB3, oneDB2, oneDB1] using hr
    subst e
    obtain ⟨⟨ids, _, h2, h3⟩, _⟩ := hR
    have hm : [2] ∈ ids := (h2 [2]).2 ⟨⟨[2], [], 90, [8]⟩, .link _ (by decide) (by decide), rfl⟩
    rw [if_neg (List.ne_nil_of_mem hm)] at h3
    have : (2 : Byte) ∈ ids.flatten := List.mem_flatten.2 ⟨[2], hm, by simp⟩
    rw [← Option.some.inj h3] at this
    revert this
    decide

/-! ### The conditions are met -/

theorem coalDB_keys : Keys coalDB := ⟨by unfold KeyUnique; decide, by unfold KeyUnique; decide, by unfold KeyUnique; decide⟩

/-- A worker fails after its first statement, the process ends, and the next run begins. -/
example : Keys coalDB ∧ coalDB.certs.length < 9 ∧ coalDB.policies.length < 9 ∧ Waiting coalDB [100] ∧ ∃ db w, Reach 9 1024 coalDB db w ∧ w 12 = .replace := by
  have h0 : (chunkOf coalDB 12 1024).length ≠ 0 := fun h => chunkOf_nil (by decide) h [100] (by decide) (by decide)
  have hs : ∀ db p, countNonCoalesced db ≠ 0 → start db p = .count := fun db p h => by unfold start; rw [if_neg h]
  have hc : countNonCoalesced coalDB ≠ 0 := by decide
  have he : exec 9 1024 12 .count coalDB = some (coalDB, .replace) := by unfold exec; dsimp only; rw [if_neg h0]
  have r1 : Reach 9 1024 coalDB coalDB ((start coalDB).put 12 .replace) := .step 12 (by decide) .init (by rw [hs _ _ hc]; exact he)
  have r2 : Reach 9 1024 coalDB coalDB (((start coalDB).put 12 .replace).put 12 .failed) := .fail 12 (by decide) r1 (by unfold Workers.put; rw [if_pos rfl]; simp)
  have r3 : Reach 9 1024 coalDB coalDB ((start coalDB).put 12 .replace) := .step 12 (by decide) (.again r2) (by rw [hs _ _ hc]; exact he)
  exact ⟨coalDB_keys, by decide, by decide, by unfold Waiting; decide, coalDB, _, r3, by unfold Workers.put; rw [if_pos rfl]⟩

/-- Some run of a table with waiting domains returns nil. -/
example : ∃ db w, Reach 9 1024 coalDB db w ∧ ReturnsNil w := by
  obtain ⟨db, w, h, hn, _⟩ := C112_recovers coalDB_keys (fuel := 9) (chunk := 1024) (by decide) (by decide) (by decide) .init
  exact ⟨db, w, h, hn⟩

/-- A partition with more waiting domains than a chunk. -/
example : Keys coalDB ∧ 1 < (coalDB.dirty.filter (fun r => shardOf r.1 == 12 && !r.2)).length := ⟨coalDB_keys, by decide⟩

end Fpki.Coalesce
