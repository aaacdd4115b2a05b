import Verif.Lemmas.BenchFiles

/-!
# C191, C192: the benchmark of coalescing
-/
namespace Fpki.Bench
open Fpki.Db

/-! ## C191: the workers -/

/-- C191: whatever the schedule, when `callPartitionsWithWorkers` returns every partition was called exactly once, in the order of their numbers, and every call has returned. -/
theorem C191_exactly_once {ε : Type} {n : Nat} {workers : Int} {s t : Farm ε} {k : Nat} (h0 : start ε n workers = some s) (h : Run n s k t) (hr : t.result ≠ none) :
    t.calls = List.range n ∧ (t.outs.map Prod.fst).Perm (List.range n) := by
  have I := inv_run h0 h
  cases he : t.result with
  | none => exact absurd he hr
  | some r =>
    obtain ⟨h1, h2, _⟩ := I.result r he
    have h3 := I.closed h1
    have h4 : busyOf t.workers = [] := by
      unfold busyOf
      rw [List.filterMap_eq_nil_iff]
      intro x hx
      rw [h2 x hx]; rfl
    have h5 := I.work
    rw [h4, h3] at h5
    exact ⟨by rw [I.calls, h3], h5⟩

/-- C191: the result lists, in the order of the partitions, exactly the errors that the calls returned; it is nil (the empty list) exactly if no call failed. -/
theorem C191_result {ε : Type} {n : Nat} {workers : Int} {s t : Farm ε} {k : Nat} (h0 : start ε n workers = some s) (h : Run n s k t) (r : List (Nat × ε)) (hr : t.result = some r) :
    (∀ p e, (p, e) ∈ r ↔ (p, some e) ∈ t.outs) ∧ (r.map Prod.fst).Pairwise (· < ·) ∧ (r = [] ↔ ∀ x ∈ t.outs, x.2 = none) := by
  have I := inv_run h0 h
  obtain ⟨h1, h2, h3⟩ := I.result r hr
  have hout := (C191_exactly_once h0 h (by rw [hr]; simp)).2
  have hiff : ∀ p e, (p, e) ∈ r ↔ (p, some e) ∈ t.outs := by
    intro p e
    rw [h3, List.mem_filterMap]
    constructor
    · rintro ⟨q, hq, he⟩
      cases hx : t.errs q with
      | none => rw [hx] at he; cases he
      | some y =>
        rw [hx] at he
        cases he
        exact (I.errs _ _).1 hx
    · intro he
      refine ⟨p, ?_, by rw [(I.errs p e).2 he]; rfl⟩
      exact hout.mem_iff.1 (List.mem_map.2 ⟨_, he, rfl⟩)
  refine ⟨hiff, ?_, ?_⟩
  · rw [h3, List.map_filterMap]
    have : (List.range n).filterMap (fun p => Option.map Prod.fst ((t.errs p).map (fun e => (p, e)))) = (List.range n).filter (fun p => (t.errs p).isSome) := by
      rw [← List.filterMap_eq_filter]
      congr 1
      funext p
      cases hx : t.errs p <;> simp [Option.guard, hx]
    rw [this]
    exact (List.pairwise_lt_range (n := n)).sublist List.filter_sublist
  · constructor
    · intro he x hx
      obtain ⟨p, o⟩ := x
      cases o with
      | none => rfl
      | some e => have := (hiff p e).2 hx; rw [he] at this; cases this
    · intro ha
      cases r with
      | nil => rfl
      | cons x r =>
        have := ha _ ((hiff x.1 x.2).1 List.mem_cons_self)
        cases this

/-- C191: at every moment no partition has been begun twice, and at most `workers` of them (and at most as many as there are) are in work. -/
theorem C191_always {ε : Type} {n : Nat} {workers : Int} {s t : Farm ε} {k : Nat} (h0 : start ε n workers = some s) (h : Run n s k t) :
    t.calls.Nodup ∧ (∀ p ∈ t.calls, p < n) ∧ (t.workers.filter (fun x => x ≠ .idle ∧ x ≠ .gone)).length ≤ min workers.toNat n := by
  have I := inv_run h0 h
  refine ⟨by rw [I.calls]; exact List.nodup_range, ?_, ?_⟩
  · intro p hp
    rw [I.calls] at hp
    have := List.mem_range.1 hp
    have := I.next_le
    omega
  · refine (List.length_filter_le _ _).trans ?_
    rw [I.len]

/-- C191: no execution is longer than this, and there is no deadlock: as long as the function has not returned, something can happen (calls that run do return). -/
theorem C191_ends {ε : Type} {n : Nat} (hn : 0 < n) {workers : Int} {s t : Farm ε} {k : Nat} (h0 : start ε n workers = some s) (h : Run n s k t) :
    k ≤ 2 * n + min workers.toNat n + 2 ∧ (t.result = none → ∃ e u, exec n t e = some u) := by
  have I := inv_run h0 h
  refine ⟨by have := I.steps; omega, ?_⟩
  intro hr
  refine progress I ?_ hr
  unfold start at h0
  split at h0
  · cases h0
  · omega

/-- C191: without a positive number of workers the call is refused, and with one it begins. -/
theorem C191_refused (ε : Type) (n : Nat) (workers : Int) : start ε n workers = none ↔ workers ≤ 0 := by
  unfold start
  split <;> simp_all

/-- Three partitions, two workers; the second call fails. -/
def exEvents : List (Event String) :=
  [.send 1, .send 0, .finish 1 none, .finish 0 (some "lock"), .send 0, .close, .exit 1, .finish 0 none, .exit 0, .ret]

example : ∃ s t, start String 3 2 = some s ∧ exEvents.foldlM (exec 3) s = some t ∧ t.result = some [(1, "lock")] ∧ t.calls = [0, 1, 2] ∧ t.outs.map Prod.fst = [0, 1, 2] := by
  refine ⟨_, _, rfl, rfl, ?_⟩
  decide

theorem run_foldlM {n : Nat} {s t : Farm ε} : ∀ (es : List (Event ε)) {k : Nat} {u : Farm ε}, Run n s k u → es.foldlM (exec n) u = some t → ∃ k', Run n s k' t
  | [], k, u, h, he => by
    simp only [List.foldlM_nil, pure, Option.some.injEq] at he
    subst he; exact ⟨k, h⟩
  | e :: es, k, u, h, he => by
    rw [List.foldlM_cons] at he
    cases hx : exec n u e with
    | none => rw [hx] at he; cases he
    | some v => rw [hx] at he; exact run_foldlM es (.step e h hx) he

example : ∃ (s t : Farm String) (k : Nat), start String 3 2 = some s ∧ Run 3 s k t ∧ t.result = some [(1, "lock")] := by
  obtain ⟨k, hk⟩ := run_foldlM (n := 3) (t := (exEvents.foldlM (exec 3) ((start String 3 2).get (by decide))).get (by decide)) exEvents (.refl ((start String 3 2).get (by decide))) (by simp)
  exact ⟨_, _, k, by simp, hk, by decide⟩

/-! ## C192: the workload -/

/-- C192: `largestRemainder` divides the total exactly: there is no panic, nothing is lost, and every part is its exact share `total * w / sum`, rounded down or up. -/
theorem C192_shares (total : Nat) (weights : List Nat) (h : 0 < weights.sum) : ∃ out, largestRemainder total weights = some out ∧ out.length = weights.length ∧ out.sum = total ∧
    ∀ i < weights.length, total * weights.getD i 0 < (out.getD i 0 + 1) * weights.sum ∧ out.getD i 0 * weights.sum < total * weights.getD i 0 + weights.sum :=
  remainder_quota total weights h

example : largestRemainder 10 [1, 1, 1] = some [4, 3, 3] ∧ largestRemainder 7 [20, 18, 15] = some [3, 2, 2] := by decide

/-- C192: `allocatePerPartition` never panics if there is room, and fills no partition beyond its capacity. -/
theorem C192_capacity (capacity : List Nat) (total : Nat) (h : total ≤ capacity.sum) : ∃ out, allocatePerPartition capacity total = some out ∧ out.length = capacity.length ∧ out.sum = total ∧
    ∀ i < capacity.length, out.getD i 0 ≤ capacity.getD i 0 := by
  obtain ⟨out, h1, h2, h3, h4, _⟩ := allocate_spec capacity total h
  exact ⟨out, h1, h2, h3, h4⟩

example : allocatePerPartition [3, 0, 2] 4 = some [2, 0, 2] ∧ allocatePerPartition [1] 2 = none := by decide

/-- C192: policies and certificates are in the proportion that was asked for, up to half a domain: three policies for a mixed domain, four certificates for every active one. -/
theorem C192_balance (active balance : Nat) (hb : balance ≤ 75) : mixedDomainsForBalance active balance ≤ active ∧
    100 * (3 * mixedDomainsForBalance active balance) ≤ balance * (4 * active) + 150 ∧ balance * (4 * active) ≤ 100 * (3 * mixedDomainsForBalance active balance) + 150 := by
  obtain ⟨h1, h2, h3⟩ := mixed_spec active balance hb
  have : balance * (4 * active) = 4 * (active * balance) := by ring
  rw [this]
  omega

example : mixedDomainsForBalance 20378 75 = 20378 ∧ mixedDomainsForBalance 20378 10 = 2717 := by decide

/-- C192: for every number of domains from that of the smallest size on, every skew and every balance that `parseFlags` accepts: the fixture is written without a panic, and the DB
that is loaded from its files passes the check of the numbers of rows. -/
theorem C192_fixture (dirty : Nat) (skew : Skew) (balance : Nat) (hd : 20480 ≤ dirty) (hd' : dirty ≤ 2 ^ 60) (hb : balance ≤ 75) :
    ∃ p f, plan dirty skew balance = some p ∧ build p = some f ∧ verifyFixtureCounts p dirty (load f) = true := by
  obtain ⟨p, h1, l1, l2, l3, l4, s1, s2, s3, s4, _, _, h5, _⟩ := plan_spec dirty skew balance hd hb
  have hst := stale_sum p l1 l2 l3 l4 (fun i hi => h5 i hi)
  obtain ⟨f, hf, g⟩ := build_spec p l2 l3 l4 (by omega)
  refine ⟨p, f, h1, hf, ?_⟩
  rw [load_eq g]
  unfold verifyFixtureCounts
  have := g.lenD
  simp only [g.lenC, g.lenDC, g.lenP, g.lenDP, g.lenPay, g.lenD, g.dirty, List.length_map, Bool.and_eq_true, beq_iff_eq]
  omega

/-- The division of 20480 domains. -/
example : ∃ p f, plan 20480 .large 10 = some p ∧ build p = some f := by
  obtain ⟨p, f, h1, h2, _⟩ := C192_fixture 20480 .large 10 (by decide) (by decide) (by decide)
  exact ⟨p, f, h1, h2⟩

/-- C192: every partition gets its share of the domains: those of `-partition-skew` in the ratio of its weights, rounded down or up, nothing is lost, and no partition has a
negative number of stale domains. -/
theorem C192_skew (dirty : Nat) (skew : Skew) (balance : Nat) (hd : 20480 ≤ dirty) (hb : balance ≤ 75) : ∃ p, plan dirty skew balance = some p ∧ p.total.length = 32 ∧ p.total.sum = dirty ∧
    (∀ i < 32, dirty * (weightsOf skew).getD i 0 < (p.total.getD i 0 + 1) * (weightsOf skew).sum ∧ p.total.getD i 0 * (weightsOf skew).sum < dirty * (weightsOf skew).getD i 0 + (weightsOf skew).sum) ∧
    ∀ i < 32, (p.certOnly.getD i 0 : Int) + p.mixed.getD i 0 + p.stale.getD i 0 = p.total.getD i 0 ∧ 0 ≤ p.stale.getD i 0 := by
  obtain ⟨p, h1, l1, _, _, _, s1, _, _, _, _, _, h5, h6⟩ := plan_spec dirty skew balance hd hb
  exact ⟨p, h1, l1, s1, h6, fun i hi => ⟨by have := (h5 i hi).1; omega, (h5 i hi).2⟩⟩

/-- C192: what a run is compared with is what coalescing computes: after the dirty domains of the loaded fixture were coalesced, the payload rows are exactly the expected ones, and
exactly the domains that are not stale are left. -/
theorem C192_expected (dirty : Nat) (skew : Skew) (balance : Nat) (hd : 20480 ≤ dirty) (hd' : dirty ≤ 2 ^ 60) (hb : balance ≤ 75) (fuel chunk n : Nat) (hf : 4 * dirty < fuel) (hc : 0 < chunk)
    (hn : dirty < n) : ∃ p f db', plan dirty skew balance = some p ∧ build p = some f ∧ recomputeDirty fuel chunk n (load f) = some db' ∧ f.expected.length = p.certOnlyCount + p.mixedCount ∧
      (∀ r, r ∈ db'.payloads ↔ r ∈ f.expected) ∧ (∀ x, x ∈ db'.domains ↔ x ∈ f.domains ∧ staleName x.2 = false) ∧ ∀ x ∈ db'.dirty, x.2 = true := by
  obtain ⟨p, h1, l1, l2, l3, l4, s1, s2, s3, s4, _, _, h5, _⟩ := plan_spec dirty skew balance hd hb
  have hst := stale_sum p l1 l2 l3 l4 (fun i hi => h5 i hi)
  obtain ⟨f, hbf, g⟩ := build_spec p l2 l3 l4 (by omega)
  have hD := g.lenD
  have hC := g.lenC
  have hP := g.lenP
  have hk : Keys (load f) := by
    rw [load_eq g]
    refine ⟨g.tabC.ndid, g.tabP.ndid, ?_⟩
    unfold KeyUnique
    rw [g.dirty, List.map_map]
    exact g.ndd
  have hdl : (load f).dirty.length = f.domains.length := by rw [load_eq g]; simp [g.dirty]
  obtain ⟨db', e, c1, c2, c3, c4, _⟩ := C22_coalesced_payload (load f) hk fuel chunk n (by rw [load_eq g]; dsimp only; omega) (by rw [load_eq g]; dsimp only; omega) hc (by omega)
  refine ⟨p, f, db', h1, hbf, e, by rw [g.lenE, s2, s3], ?_⟩
  rw [load_eq g] at c1 c2 c3 c4
  dsimp only at c1 c2 c3 c4
  have hdd : ∀ d, (d, false) ∈ f.dirty ↔ ∃ x ∈ f.domains, x.1 = d := by
    intro d
    rw [g.dirty, List.mem_map]
    constructor
    · rintro ⟨x, hx, he⟩
      exact ⟨x, hx, (Prod.mk.inj he).1⟩
    · rintro ⟨x, hx, rfl⟩
      exact ⟨x, hx, rfl⟩
  have hagg : ∀ {cs : List Cert} {ls : List (Bytes × Bytes)} {d : Bytes} {v v' : Option Bytes}, IsAgg cs ls d v → IsAgg cs ls d v' → v = v' :=
    fun h h' => isAgg_unique (fun _ => Iff.rfl) (fun _ => Iff.rfl) h h'
  have key : ∀ r, r ∈ db'.payloads ↔ r ∈ f.expected := by
    intro r
    by_cases hr : (r.domain, false) ∈ f.dirty
    · rw [c1 r hr]
      constructor
      · rintro ⟨a1, a2, a3⟩
        obtain ⟨x, hx, hxe⟩ := (hdd _).1 hr
        rcases g.kind x hx with ⟨r', hr', he⟩ | ⟨_, b1, b2⟩
        · obtain ⟨_, e1, e2⟩ := g.exp r' hr'
          rw [he, hxe] at e1 e2
          have h1 := hagg e1 a1
          have h2 := hagg e2 a2
          have : r' = r := by
            cases r; cases r'; simp_all
          exact this ▸ hr'
        · rw [hxe] at b1 b2
          have h1 := hagg a1 (isAgg_none b1)
          have h2 := hagg a2 (isAgg_none b2)
          rcases a3 with a3 | a3
          · exact absurd h1 a3
          · exact absurd h2 a3
      · intro hr'
        obtain ⟨e0, e1, e2⟩ := g.exp r hr'
        exact ⟨e1, e2, Or.inl e0⟩
    · rw [c2 r hr]
      constructor
      · intro h
        obtain ⟨x, hx, hxe, _⟩ := g.pay r h
        exact absurd ((hdd _).2 ⟨x, hx, hxe⟩) hr
      · intro h
        obtain ⟨x, hx, hxe, _⟩ := g.expdom r h
        exact absurd ((hdd _).2 ⟨x, hx, hxe⟩) hr
  refine ⟨key, ?_, ?_⟩
  · intro x
    rw [c3 x]
    constructor
    · rintro ⟨hx, h⟩
      refine ⟨hx, ?_⟩
      obtain ⟨r, hr, he⟩ := h ((hdd _).2 ⟨x, hx, rfl⟩)
      obtain ⟨y, hy, hye, hys⟩ := g.expdom r ((key r).1 hr)
      have : y = x := List.inj_on_of_nodup_map g.ndd hy hx (hye.trans he)
      rw [← this]; exact hys
    · rintro ⟨hx, hs⟩
      refine ⟨hx, fun _ => ?_⟩
      rcases g.kind x hx with ⟨r, hr, he⟩ | ⟨b, _⟩
      · exact ⟨r, (key r).2 hr, he⟩
      · rw [hs] at b; cases b
  · intro x hx
    rw [c4, List.mem_map] at hx
    obtain ⟨y, _, rfl⟩ := hx
    rfl

example : ∃ p f db', plan 20480 .little 75 = some p ∧ build p = some f ∧ recomputeDirty 100000 1000 30000 (load f) = some db' ∧ ∀ r, r ∈ db'.payloads ↔ r ∈ f.expected := by
  obtain ⟨p, f, db', h1, h2, h3, _, h4, _⟩ := C192_expected 20480 .little 75 (by decide) (by decide) (by decide) 100000 1000 30000 (by decide) (by decide) (by decide)
  exact ⟨p, f, db', h1, h2, h3, h4⟩

end Fpki.Bench
