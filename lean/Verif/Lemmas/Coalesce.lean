import Verif.Model.Coalesce
import Verif.Props.DbSql

/-!
# Lemmas about coalescing with workers
-/
namespace Fpki.Coalesce
open Fpki.Db

variable {fuel chunk : Nat} {db0 : DB}

/-- The statement at which the domain `d` is: that of its worker, if it is in the chunk. -/
def stage (chunk : Nat) (db : DB) (w : Workers) (d : Bytes) : Pc := if d ∈ chunkOf db (shardOf d) chunk then w (shardOf d) else .count

/-- Between calls, or in a call before its first change. -/
def Quiet (pc : Pc) : Prop := pc ≠ .delPayloads ∧ pc ≠ .delDomains ∧ pc ≠ .mark

structure DomOk (db0 db : DB) (pc : Pc) (d : Bytes) : Prop where
  fresh : (d, false) ∉ db0.dirty → (∀ r, r.domain = d → (r ∈ db.payloads ↔ r ∈ db0.payloads)) ∧ (∀ x, x.1 = d → (x ∈ db.domains ↔ x ∈ db0.domains))
  done : Done db0 db d → (∀ r, r.domain = d → (r ∈ db.payloads ↔ GoodRow db0 r)) ∧ (∀ x, x.1 = d → (x ∈ db.domains ↔ x ∈ db0.domains ∧ ∃ r, r.domain = d ∧ GoodRow db0 r))
  wait : (d, false) ∈ db.dirty → (∀ r, r.domain = d → r ∈ db.payloads → r ∈ db0.payloads ∨ IsPayload db0 r) ∧ (∀ x, x.1 = d → x ∈ db.domains → x ∈ db0.domains) ∧
    (∀ x, x.1 = d → x ∈ db0.domains → (∃ r, r.domain = d ∧ GoodRow db0 r) → x ∈ db.domains)
  replaced : (d, false) ∈ db.dirty → pc = .delPayloads → ∀ r, r.domain = d → (r ∈ db.payloads ↔ IsPayload db0 r)
  good : (d, false) ∈ db.dirty → pc = .delDomains ∨ pc = .mark → ∀ r, r.domain = d → (r ∈ db.payloads ↔ GoodRow db0 r)
  named : (d, false) ∈ db.dirty → pc = .mark → ∀ x, x.1 = d → x ∈ db.domains → ∃ r, r.domain = d ∧ GoodRow db0 r

theorem DomOk.congr {db db' : DB} {pc : Pc} {d : Bytes} (h : DomOk db0 db pc d) (h1 : ∀ r, r.domain = d → (r ∈ db'.payloads ↔ r ∈ db.payloads))
    (h2 : ∀ x, x.1 = d → (x ∈ db'.domains ↔ x ∈ db.domains)) (h3 : (d, false) ∈ db'.dirty ↔ (d, false) ∈ db.dirty) : DomOk db0 db' pc d := by
  constructor
  · intro hf
    exact ⟨fun r hr => (h1 r hr).trans ((h.fresh hf).1 r hr), fun x hx => (h2 x hx).trans ((h.fresh hf).2 x hx)⟩
  · intro hd
    have hd' : Done db0 db d := ⟨hd.1, fun h => hd.2 (h3.2 h)⟩
    exact ⟨fun r hr => (h1 r hr).trans ((h.done hd').1 r hr), fun x hx => (h2 x hx).trans ((h.done hd').2 x hx)⟩
  · intro hw
    have hw' := h.wait (h3.1 hw)
    exact ⟨fun r hr hm => hw'.1 r hr ((h1 r hr).1 hm), fun x hx hm => hw'.2.1 x hx ((h2 x hx).1 hm), fun x hx hm hg => (h2 x hx).2 (hw'.2.2 x hx hm hg)⟩
  · intro hw hp r hr
    exact (h1 r hr).trans (h.replaced (h3.1 hw) hp r hr)
  · intro hw hp r hr
    exact (h1 r hr).trans (h.good (h3.1 hw) hp r hr)
  · intro hw hp x hx hm
    exact h.named (h3.1 hw) hp x hx ((h2 x hx).1 hm)

theorem DomOk.quiet {db : DB} {pc pc' : Pc} {d : Bytes} (h : DomOk db0 db pc d) (hq : Quiet pc') : DomOk db0 db pc' d :=
  ⟨h.fresh, h.done, h.wait, fun _ e => absurd e hq.1, fun _ e => (e.elim (fun e => absurd e hq.2.1) (fun e => absurd e hq.2.2)), fun _ e => absurd e hq.2.2⟩

structure Inv (chunk : Nat) (db0 db : DB) (w : Workers) : Prop where
  certs : db.certs = db0.certs
  domainCerts : db.domainCerts = db0.domainCerts
  policies : db.policies = db0.policies
  domainPolicies : db.domainPolicies = db0.domainPolicies
  dirtyKeys : db.dirty.map Prod.fst = db0.dirty.map Prod.fst
  waiting : ∀ d, (d, false) ∈ db.dirty → (d, false) ∈ db0.dirty
  dom : ∀ d, DomOk db0 db (stage chunk db w d) d
  ended : ∀ p, w p = .ended → ∀ d, shardOf d = p → (d, false) ∉ db.dirty
  busy : ∀ p, w p ≠ .count → w p ≠ .ended → w p ≠ .failed → chunkOf db p chunk ≠ []

theorem le_sum_of_mem : ∀ (l : List Nat) (x : Nat), x ∈ l → x ≤ l.sum
  | [], _, h => by cases h
  | a :: l, x, h => by
    rw [List.sum_cons]
    rcases List.mem_cons.1 h with e | e
    · omega
    · have := le_sum_of_mem l x e; omega

theorem count_zero {db : DB} (h : countNonCoalesced db = 0) (d : Bytes) : (d, false) ∉ db.dirty := by
  intro hd
  unfold countNonCoalesced at h
  have := le_sum_of_mem ((List.range 32).map (fun p => db.dirty.countP (fun r => shardOf r.1 == p && !r.2))) (db.dirty.countP (fun r => shardOf r.1 == shardOf d && !r.2)) (List.mem_map.2 ⟨shardOf d, List.mem_range.2 (shardOf_lt d), rfl⟩)
  rw [h, Nat.le_zero, List.countP_eq_zero] at this
  exact this (d, false) hd (by simp)

theorem stage_put_quiet {db : DB} {w w' : Workers} {d : Bytes} (h : ∀ q, w' q = w q ∨ Quiet (w' q)) : stage chunk db w' d = stage chunk db w d ∨ Quiet (stage chunk db w' d) := by
  unfold stage
  split
  · exact h _
  · exact Or.inl rfl

/-- The workers change, the tables do not. -/
theorem Inv.workers {db : DB} {w w' : Workers} (h : Inv chunk db0 db w) (hw : ∀ q, w' q = w q ∨ Quiet (w' q)) (he : ∀ p, w' p = .ended → ∀ d, shardOf d = p → (d, false) ∉ db.dirty)
    (hb : ∀ p, w' p ≠ .count → w' p ≠ .ended → w' p ≠ .failed → chunkOf db p chunk ≠ []) : Inv chunk db0 db w' := by
  refine ⟨h.certs, h.domainCerts, h.policies, h.domainPolicies, h.dirtyKeys, h.waiting, fun d => ?_, he, hb⟩
  rcases stage_put_quiet (chunk := chunk) (db := db) (d := d) hw with e | e
  · rw [e]; exact h.dom d
  · exact (h.dom d).quiet e

theorem Inv.start {db : DB} {w : Workers} (h : Inv chunk db0 db w) : Inv chunk db0 db (start db) := by
  refine h.workers (fun q => Or.inr ?_) (fun p hp d _ => ?_) (fun p h1 h2 _ => ?_)
  · unfold Coalesce.start; split <;> exact ⟨by simp, by simp, by simp⟩
  · unfold Coalesce.start at hp
    split at hp
    · next hc => exact count_zero hc d
    · cases hp
  · unfold Coalesce.start at h1 h2
    split at h2
    · exact absurd rfl h2
    · next hc => rw [if_neg hc] at h1; exact absurd rfl h1

theorem Inv.refl (db : DB) : Inv chunk db db (fun _ => .failed) := by
  refine ⟨rfl, rfl, rfl, rfl, rfl, fun _ h => h, fun d => ?_, fun p h => (by cases h), fun p _ _ h => absurd rfl h⟩
  constructor
  · exact fun _ => ⟨fun _ _ => Iff.rfl, fun _ _ => Iff.rfl⟩
  · exact fun h => absurd h.1 h.2
  · exact fun _ => ⟨fun _ _ h => Or.inl h, fun _ _ h => h, fun _ _ h _ => h⟩
  · intro _ h; unfold stage at h; split at h <;> cases h
  · intro _ h; unfold stage at h; split at h <;> (rcases h with h | h <;> cases h)
  · intro _ h; unfold stage at h; split at h <;> cases h

theorem chunkOf_congr {db db' : DB} (h : db'.dirty = db.dirty) (p : Nat) : chunkOf db' p chunk = chunkOf db p chunk := by
  unfold chunkOf
  rw [h]

/-- A statement of partition `p` changes only rows of the domains of its chunk. -/
theorem Inv.local {db db' : DB} {w : Workers} {p : Nat} {pc : Pc} (h : Inv chunk db0 db w)
    (h1 : db'.certs = db.certs) (h2 : db'.domainCerts = db.domainCerts) (h3 : db'.policies = db.policies) (h4 : db'.domainPolicies = db.domainPolicies)
    (hkeys : db'.dirty.map Prod.fst = db.dirty.map Prod.fst) (hwait : ∀ d, (d, false) ∈ db'.dirty → (d, false) ∈ db.dirty)
    (hpay : ∀ r, r.domain ∉ chunkOf db p chunk → (r ∈ db'.payloads ↔ r ∈ db.payloads))
    (hdoms : ∀ x, x.1 ∉ chunkOf db p chunk → (x ∈ db'.domains ↔ x ∈ db.domains))
    (hflag : ∀ d, d ∉ chunkOf db p chunk → ((d, false) ∈ db'.dirty ↔ (d, false) ∈ db.dirty))
    (hother : ∀ q, q ≠ p → chunkOf db' q chunk = chunkOf db q chunk)
    (hown : chunkOf db' p chunk = chunkOf db p chunk ∨ Quiet pc)
    (hin : ∀ d ∈ chunkOf db p chunk, DomOk db0 db' (stage chunk db' (w.put p pc) d) d)
    (he : pc ≠ .ended) (hb : pc = .count ∨ chunkOf db' p chunk ≠ []) : Inv chunk db0 db' (w.put p pc) := by
  refine ⟨h1.trans h.certs, h2.trans h.domainCerts, h3.trans h.policies, h4.trans h.domainPolicies, hkeys.trans h.dirtyKeys, fun d hd => h.waiting d (hwait d hd), fun d => ?_, fun q hq d hd hm => ?_, fun q g1 g2 g3 => ?_⟩
  · by_cases hd : d ∈ chunkOf db p chunk
    · exact hin d hd
    · have hc := (h.dom d).congr (db' := db') (fun r hr => hpay r (by rw [hr]; exact hd)) (fun x hx => hdoms x (by rw [hx]; exact hd)) (hflag d hd)
      have hst : stage chunk db' (w.put p pc) d = stage chunk db w d ∨ Quiet (stage chunk db' (w.put p pc) d) := by
        unfold stage
        by_cases hs : shardOf d = p
        · right
          rw [hs]
          rcases hown with ho | ho
          · rw [ho, if_neg hd]; exact ⟨by simp, by simp, by simp⟩
          · split
            · unfold Workers.put; rw [if_pos rfl]; exact ho
            · exact ⟨by simp, by simp, by simp⟩
        · left
          rw [hother _ hs]
          unfold Workers.put
          rw [if_neg hs]
      rcases hst with e | e
      · rw [e]; exact hc
      · exact hc.quiet e
  · unfold Workers.put at hq
    split at hq
    · exact he hq
    · exact h.ended q hq d hd (hwait d hm)
  · unfold Workers.put at g1 g2 g3
    split at g1
    · next e =>
      subst e
      rcases hb with hb | hb
      · exact absurd hb g1
      · exact hb
    · next e =>
      rw [if_neg e] at g2 g3
      rw [hother q e]
      exact h.busy q g1 g2 g3

theorem stage_in {db db' : DB} {w : Workers} {p : Nat} {pc : Pc} {d : Bytes} (hd : d ∈ chunkOf db p chunk) (hc : chunkOf db' p chunk = chunkOf db p chunk) : stage chunk db' (w.put p pc) d = pc := by
  have hs := (mem_chunkOf hd).2
  unfold stage
  rw [hs, hc, if_pos hd]
  unfold Workers.put
  rw [if_pos rfl]

theorem stage_here {db : DB} {w : Workers} {p : Nat} {d : Bytes} (hd : d ∈ chunkOf db p chunk) : stage chunk db w d = w p := by
  have hs := (mem_chunkOf hd).2
  unfold stage
  rw [hs, if_pos hd]

theorem not_done {db : DB} {d : Bytes} (h : (d, false) ∈ db.dirty) : ¬ Done db0 db d := fun hd => hd.2 h

/-- `REPLACE INTO domain_payloads` -/
theorem Inv.replace {db : DB} {w : Workers} {p : Nat} (hk : Keys db0) (hf : db0.certs.length < fuel) (hf' : db0.policies.length < fuel) (h : Inv chunk db0 db w) (hw : w p = .replace) :
    ∃ db', stReplace fuel chunk p db = some db' ∧ Inv chunk db0 db' (w.put p .delPayloads) := by
  have hch := fun d (h : d ∈ chunkOf db p chunk) => mem_chunkOf h
  obtain ⟨rows, hr1, hr2, hr3⟩ := mapM_spec (f := payloadOf fuel db) (Q := fun d (r : Payload) => r.domain = d ∧ IsPayload db0 r) (chunkOf db p chunk) (by
    intro d _
    obtain ⟨v, h1, h2⟩ := aggregate_spec db0.certs db0.domainCerts hk.certs d fuel hf
    obtain ⟨v', h1', h2'⟩ := aggregate_spec db0.policies db0.domainPolicies hk.policies d fuel hf'
    refine ⟨⟨d, v, v'⟩, ?_, rfl, h2, h2'⟩
    unfold payloadOf
    rw [h.certs, h.domainCerts, h.policies, h.domainPolicies, h1, h1'])
  have hinj : ∀ a ∈ rows, ∀ b ∈ rows, a.domain = b.domain → a = b := by
    intro a ha b hb e
    obtain ⟨_, _, _, h1⟩ := hr2 a ha
    obtain ⟨_, _, _, h2⟩ := hr2 b hb
    exact isPayload_unique h1 h2 e
  have hpay : ∀ r, r ∈ replaceInto Payload.domain db.payloads rows ↔ (r.domain ∈ chunkOf db p chunk ∧ IsPayload db0 r) ∨ (r.domain ∉ chunkOf db p chunk ∧ r ∈ db.payloads) := by
    intro r
    rw [mem_replaceInto_iff Payload.domain rows db.payloads r hinj]
    constructor
    · rintro (h1 | ⟨h1, h2⟩)
      · obtain ⟨d, hd, he, hi⟩ := hr2 r h1
        rw [← he] at hd
        exact Or.inl ⟨hd, hi⟩
      · right
        refine ⟨fun hd => ?_, h1⟩
        obtain ⟨x, hx, he, _⟩ := hr3 _ hd
        exact h2 x hx he
    · rintro (⟨h1, h2⟩ | ⟨h1, h2⟩)
      · obtain ⟨x, hx, he, hi⟩ := hr3 _ h1
        rw [isPayload_unique h2 hi he.symm]
        exact Or.inl hx
      · refine Or.inr ⟨h2, fun x hx e => h1 ?_⟩
        obtain ⟨d, hd, he, _⟩ := hr2 x hx
        rw [← e, he]
        exact hd
  refine ⟨{ db with payloads := replaceInto Payload.domain db.payloads rows }, by unfold stReplace; rw [hr1]; rfl, ?_⟩
  have hcc : ∀ q, chunkOf { db with payloads := replaceInto Payload.domain db.payloads rows } q chunk = chunkOf db q chunk := fun q => chunkOf_congr rfl q
  refine h.local (pc := .delPayloads) rfl rfl rfl rfl rfl (fun _ hd => hd) (fun r hr => ?_) (fun _ _ => Iff.rfl) (fun _ _ => Iff.rfl) (fun q _ => hcc q) (Or.inl (hcc p)) (fun d hd => ?_) (by simp) (Or.inr ?_)
  · rw [hpay r]; simp [hr]
  · rw [stage_in hd (hcc p)]
    have hwt := (hch d hd).1
    have hold := (h.dom d).wait hwt
    refine ⟨fun hn => absurd (h.waiting d hwt) hn, fun hn => absurd hwt hn.2, fun _ => ⟨fun r hr hm => ?_, hold.2.1, hold.2.2⟩, fun _ _ r hr => ?_, fun _ e => ?_, fun _ e => (by cases e)⟩
    · rcases (hpay r).1 hm with hm | hm
      · exact Or.inr hm.2
      · exact absurd (by rw [hr]; exact hd) hm.1
    · rw [hpay r, hr]; simp [hd]
    · rcases e with e | e <;> cases e
  · rw [hcc]
    exact h.busy p (by rw [hw]; simp) (by rw [hw]; simp) (by rw [hw]; simp)

/-- `DELETE dp FROM domain_payloads` -/
theorem Inv.delPayloads {db : DB} {w : Workers} {p : Nat} (h : Inv chunk db0 db w) (hw : w p = .delPayloads) : Inv chunk db0 (stDelPayloads chunk p db) (w.put p .delDomains) := by
  have hch := fun d (h : d ∈ chunkOf db p chunk) => mem_chunkOf h
  have hcc : ∀ q, chunkOf (stDelPayloads chunk p db) q chunk = chunkOf db q chunk := fun q => chunkOf_congr rfl q
  have hpay : ∀ r, r ∈ (stDelPayloads chunk p db).payloads ↔ r ∈ db.payloads ∧ (r.domain ∈ chunkOf db p chunk → r.certIds ≠ none ∨ r.policyIds ≠ none) := by
    intro r
    unfold stDelPayloads
    rw [List.mem_filter]
    refine and_congr_right (fun _ => ?_)
    rcases r with ⟨d, c, q⟩
    cases c <;> cases q <;> simp
  refine h.local (pc := .delDomains) rfl rfl rfl rfl rfl (fun _ hd => hd) (fun r hr => ?_) (fun _ _ => Iff.rfl) (fun _ _ => Iff.rfl) (fun q _ => hcc q) (Or.inl (hcc p)) (fun d hd => ?_) (by simp) (Or.inr ?_)
  · rw [hpay r]; simp [hr]
  · rw [stage_in hd (hcc p)]
    have hwt := (hch d hd).1
    have hold := (h.dom d).wait hwt
    have hrep := (h.dom d).replaced hwt (by rw [stage_here hd, hw])
    refine ⟨fun hn => absurd (h.waiting d hwt) hn, fun hn => absurd hwt hn.2, fun _ => ⟨fun r hr hm => ?_, hold.2.1, hold.2.2⟩, fun _ e => (by cases e), fun _ _ r hr => ?_, fun _ e => (by cases e)⟩
    · exact hold.1 r hr ((hpay r).1 hm).1
    · rw [hpay r, hrep r hr, hr]
      unfold GoodRow
      simp [hd]
  · rw [hcc]
    exact h.busy p (by rw [hw]; simp) (by rw [hw]; simp) (by rw [hw]; simp)

/-- `DELETE dom FROM domains` -/
theorem Inv.delDomains {db : DB} {w : Workers} {p : Nat} (h : Inv chunk db0 db w) (hw : w p = .delDomains) : Inv chunk db0 (stDelDomains chunk p db) (w.put p .mark) := by
  have hch := fun d (h : d ∈ chunkOf db p chunk) => mem_chunkOf h
  have hcc : ∀ q, chunkOf (stDelDomains chunk p db) q chunk = chunkOf db q chunk := fun q => chunkOf_congr rfl q
  have hdoms : ∀ x, x ∈ (stDelDomains chunk p db).domains ↔ x ∈ db.domains ∧ (x.1 ∈ chunkOf db p chunk → ∃ r ∈ db.payloads, r.domain = x.1) := by
    intro x
    unfold stDelDomains
    rw [List.mem_filter]
    refine and_congr_right (fun _ => ?_)
    rw [Bool.not_eq_true', Bool.and_eq_false_iff, Bool.not_eq_false', List.any_eq_true]
    constructor
    · rintro (g | ⟨r, h1, h2⟩) hx
      · simp [hx] at g
      · exact ⟨r, h1, by simpa using h2⟩
    · intro g
      by_cases hx : x.1 ∈ chunkOf db p chunk
      · obtain ⟨r, h1, h2⟩ := g hx
        exact Or.inr ⟨r, h1, by simpa using h2⟩
      · left; simpa using hx
  refine h.local (pc := .mark) rfl rfl rfl rfl rfl (fun _ hd => hd) (fun _ _ => Iff.rfl) (fun x hx => ?_) (fun _ _ => Iff.rfl) (fun q _ => hcc q) (Or.inl (hcc p)) (fun d hd => ?_) (by simp) (Or.inr ?_)
  · rw [hdoms x]; simp [hx]
  · rw [stage_in hd (hcc p)]
    have hwt := (hch d hd).1
    have hold := (h.dom d).wait hwt
    have hgood := (h.dom d).good hwt (by rw [stage_here hd, hw]; exact Or.inl rfl)
    refine ⟨fun hn => absurd (h.waiting d hwt) hn, fun hn => absurd hwt hn.2, fun _ => ⟨hold.1, fun x hx hm => hold.2.1 x hx ((hdoms x).1 hm).1, fun x hx hm hg => ?_⟩, fun _ e => (by cases e), fun _ _ => hgood, fun _ _ x hx hm => ?_⟩
    · obtain ⟨r, hr, hg'⟩ := hg
      exact (hdoms x).2 ⟨hold.2.2 x hx hm ⟨r, hr, hg'⟩, fun _ => ⟨r, (hgood r hr).2 hg', by rw [hr, hx]⟩⟩
    · obtain ⟨r, hr, e⟩ := ((hdoms x).1 hm).2 (by rw [hx]; exact hd)
      rw [hx] at e
      exact ⟨r, e, (hgood r e).1 hr⟩
  · rw [hcc]
    exact h.busy p (by rw [hw]; simp) (by rw [hw]; simp) (by rw [hw]; simp)

theorem mem_mark {db : DB} {p : Nat} {d : Bytes} : (d, false) ∈ (stMark chunk p db).dirty ↔ (d, false) ∈ db.dirty ∧ d ∉ chunkOf db p chunk := by
  unfold stMark
  rw [List.mem_map]
  constructor
  · rintro ⟨r, h1, h2⟩
    by_cases hcm : r.1 ∈ chunkOf db p chunk
    · simp [hcm] at h2
    · simp only [List.contains_eq_mem, hcm, decide_false, Bool.false_eq_true, if_false] at h2
      subst h2
      exact ⟨h1, hcm⟩
  · rintro ⟨h1, h2⟩
    exact ⟨(d, false), h1, by simp [h2]⟩

theorem filter_map_keep {α : Type} (f : α → α) (g : α → Bool) : ∀ l : List α, (∀ a ∈ l, f a = a ∨ (g a = false ∧ g (f a) = false)) → (l.map f).filter g = l.filter g
  | [], _ => rfl
  | a :: l, h => by
    have ih := filter_map_keep f g l (fun b hb => h b (List.mem_cons_of_mem _ hb))
    rw [List.map_cons]
    rcases h a List.mem_cons_self with e | ⟨e1, e2⟩
    · rw [e, List.filter_cons, List.filter_cons, ih]
    · rw [List.filter_cons_of_neg (by rw [e2]; simp), List.filter_cons_of_neg (by rw [e1]; simp), ih]

theorem mark_other {db : DB} {p q : Nat} (h : q ≠ p) : chunkOf (stMark chunk p db) q chunk = chunkOf db q chunk := by
  unfold chunkOf
  have : (stMark chunk p db).dirty.filter (fun r => shardOf r.1 == q && !r.2) = db.dirty.filter (fun r => shardOf r.1 == q && !r.2) := by
    unfold stMark
    refine filter_map_keep _ _ _ (fun r _ => ?_)
    by_cases hr : r.1 ∈ chunkOf db p chunk
    · right
      have hs := (mem_chunkOf hr).2
      have : (shardOf r.1 == q) = false := by rw [hs, beq_eq_false_iff_ne]; exact fun e => h e.symm
      simp [hr, this]
    · left; simp [hr]
  rw [this]

/-- `UPDATE dirty` -/
theorem Inv.mark {db : DB} {w : Workers} {p : Nat} (h : Inv chunk db0 db w) (hw : w p = .mark) : Inv chunk db0 (stMark chunk p db) (w.put p .count) := by
  have hch := fun d (h : d ∈ chunkOf db p chunk) => mem_chunkOf h
  refine h.local (pc := .count) rfl rfl rfl rfl ?_ (fun d hd => (mem_mark.1 hd).1) (fun _ _ => Iff.rfl) (fun _ _ => Iff.rfl) (fun d hd => ?_) (fun q hq => mark_other hq) (Or.inr ⟨by simp, by simp, by simp⟩) (fun d hd => ?_) (by simp) (Or.inl rfl)
  · unfold stMark
    rw [List.map_map]
    refine List.map_congr_left (fun r _ => ?_)
    dsimp only [Function.comp]
    split <;> rfl
  · rw [mem_mark]; simp [hd]
  · have hwt := (hch d hd).1
    have hno : (d, false) ∉ (stMark chunk p db).dirty := fun hm => (mem_mark.1 hm).2 hd
    have hold := (h.dom d).wait hwt
    have hgood := (h.dom d).good hwt (by rw [stage_here hd, hw]; exact Or.inr rfl)
    have hnamed := (h.dom d).named hwt (by rw [stage_here hd, hw])
    exact ⟨fun hn => absurd (h.waiting d hwt) hn, fun _ => ⟨hgood, fun x hx => ⟨fun hm => ⟨hold.2.1 x hx hm, hnamed x hx hm⟩, fun hm => hold.2.2 x hx hm.1 hm.2⟩⟩, fun hm => absurd hm hno, fun hm => absurd hm hno, fun hm => absurd hm hno, fun hm => absurd hm hno⟩

theorem Inv.count {db : DB} {w : Workers} {p : Nat} (hc : 0 < chunk) (h : Inv chunk db0 db w) : Inv chunk db0 db (w.put p (if (chunkOf db p chunk).length = 0 then .ended else .replace)) := by
  refine h.workers (fun q => ?_) (fun q hq d hd => ?_) (fun q g1 g2 g3 => ?_)
  · unfold Workers.put
    split
    · right; split <;> exact ⟨by simp, by simp, by simp⟩
    · exact Or.inl rfl
  · unfold Workers.put at hq
    split at hq
    · next e =>
      split at hq
      · next e0 => exact chunkOf_nil hc e0 d (hd.trans e)
      · cases hq
    · exact h.ended q hq d hd
  · unfold Workers.put at g1 g2 g3
    split at g1
    · next e =>
      subst e
      intro e0
      rw [if_pos rfl, e0] at g2
      exact g2 rfl
    · next e =>
      rw [if_neg e] at g2 g3
      exact h.busy q g1 g2 g3

theorem Inv.fail {db : DB} {w : Workers} {p : Nat} (h : Inv chunk db0 db w) : Inv chunk db0 db (w.put p .failed) := by
  refine h.workers (fun q => ?_) (fun q hq d hd => ?_) (fun q g1 g2 g3 => ?_)
  · unfold Workers.put
    split
    · right; exact ⟨by simp, by simp, by simp⟩
    · exact Or.inl rfl
  · unfold Workers.put at hq
    split at hq
    · cases hq
    · exact h.ended q hq d hd
  · unfold Workers.put at g1 g2 g3
    split at g1
    · next e => rw [if_pos e] at g3; exact absurd rfl g3
    · next e =>
      rw [if_neg e] at g2 g3
      exact h.busy q g1 g2 g3

/-- Every statement keeps the invariant, and none is stuck. -/
theorem Inv.exec {db : DB} {w : Workers} {p : Nat} (hk : Keys db0) (hf : db0.certs.length < fuel) (hf' : db0.policies.length < fuel) (hc : 0 < chunk) (h : Inv chunk db0 db w) (h1 : w p ≠ .ended) (h2 : w p ≠ .failed) :
    ∃ db' pc, exec fuel chunk p (w p) db = some (db', pc) ∧ Inv chunk db0 db' (w.put p pc) := by
  cases hw : w p with
  | count => exact ⟨_, _, rfl, h.count hc⟩
  | replace =>
    obtain ⟨db', e, hi⟩ := h.replace hk hf hf' hw
    exact ⟨db', .delPayloads, by unfold Coalesce.exec; rw [e]; rfl, hi⟩
  | delPayloads => exact ⟨_, _, rfl, h.delPayloads hw⟩
  | delDomains => exact ⟨_, _, rfl, h.delDomains hw⟩
  | mark => exact ⟨_, _, rfl, h.mark hw⟩
  | ended => exact absurd hw h1
  | failed => exact absurd hw h2

theorem Inv.of_exec {db db' : DB} {w : Workers} {p : Nat} {pc : Pc} (hk : Keys db0) (hf : db0.certs.length < fuel) (hf' : db0.policies.length < fuel) (hc : 0 < chunk) (h : Inv chunk db0 db w)
    (he : Coalesce.exec fuel chunk p (w p) db = some (db', pc)) : Inv chunk db0 db' (w.put p pc) := by
  have h1 : w p ≠ .ended := fun e => by rw [e] at he; cases he
  have h2 : w p ≠ .failed := fun e => by rw [e] at he; cases he
  obtain ⟨db2, pc2, e, hi⟩ := h.exec (p := p) hk hf hf' hc h1 h2
  rw [he] at e
  cases e
  exact hi

theorem reach_inv (hk : Keys db0) (hf : db0.certs.length < fuel) (hf' : db0.policies.length < fuel) (hc : 0 < chunk) {db : DB} {w : Workers} (h : Reach fuel chunk db0 db w) : Inv chunk db0 db w := by
  induction h with
  | init => exact (Inv.refl db0).start
  | step p _ _ he ih => exact ih.of_exec hk hf hf' hc he
  | fail p _ _ _ ih => exact ih.fail
  | again _ ih => exact ih.start

end Fpki.Coalesce
