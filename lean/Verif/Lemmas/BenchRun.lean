import Mathlib.Data.List.Forall2
import Verif.Lemmas.BenchFiles
import Verif.Model.BenchRun
import Verif.Props.DbHist

/-! Lemmas for `Verif.Props.BenchRun`. -/
namespace Fpki.Bench
open Fpki.Db

/-! ## The checks -/

theorem one_match (r : Payload) (q : Bytes × Bytes → Bool) (hq : ∀ x, q x = true → x.1 = r.domain) : ∀ D : List (Bytes × Bytes), (D.map Prod.fst).Nodup →
    (D.filter q).map (fun _ => r) = if D.any q then [r] else []
  | [], _ => rfl
  | x :: D, h => by
    rw [List.map_cons, List.nodup_cons] at h
    have ih := one_match r q hq D h.2
    by_cases hx : q x = true
    · have hnone : D.filter q = [] := by
        rw [List.filter_eq_nil_iff]
        intro y hy hyq
        exact h.1 (List.mem_map.2 ⟨y, hy, (hq y hyq).trans (hq x hx).symm⟩)
      rw [List.filter_cons_of_pos hx, hnone, List.any_cons, hx]
      simp
    · rw [List.filter_cons_of_neg hx, ih, List.any_cons]
      rw [Bool.eq_false_iff.2 hx, Bool.false_or]

/-- The name of a domain, as the checks see it. -/
def named (db : DB) (b : Bool) (r : Payload) : Bool := db.domains.any (fun x => x.1 == r.domain && staleName x.2 == b)

theorem joined_eq (db : DB) (b : Bool) (h : (db.domains.map Prod.fst).Nodup) : joined db b = db.payloads.filter (named db b) := by
  unfold joined
  have key : ∀ l : List Payload, l.flatMap (fun r => (db.domains.filter (fun x => x.1 == r.domain && staleName x.2 == b)).map (fun _ => r)) = l.filter (named db b) := by
    intro l
    induction l with
    | nil => rfl
    | cons r l ih =>
      rw [List.flatMap_cons, ih, one_match r _ (by intro x hx; simp only [Bool.and_eq_true, beq_iff_eq] at hx; exact hx.1) _ h, List.filter_cons]
      unfold named
      split <;> simp
  exact key _

theorem named_iff (db : DB) (b : Bool) (r : Payload) : named db b r = true ↔ ∃ x ∈ db.domains, x.1 = r.domain ∧ staleName x.2 = b := by
  unfold named
  simp [List.any_eq_true]

theorem byDomain_perm (l : List Payload) : (byDomain l).Perm l := List.mergeSort_perm _ _

theorem byDomain_sorted (l : List Payload) : (byDomain l).Pairwise (fun a b => (!bytesLt b.domain a.domain) = true) := by
  refine List.pairwise_mergeSort (le := fun a b => !bytesLt b.domain a.domain) ?_ ?_ l
  · intro a b c h1 h2
    simp only [Bool.not_eq_true'] at h1 h2 ⊢
    cases h3 : bytesLt c.domain a.domain with
    | false => rfl
    | true =>
      by_cases e : a.domain = b.domain
      · rw [e] at h3; rw [h3] at h2; cases h2
      · rcases bytesLt_total e with h | h
        · rw [bytesLt_trans h3 h] at h2; cases h2
        · rw [h] at h1; cases h1
  · intro a b
    simp only [Bool.or_eq_true, Bool.not_eq_true']
    cases h : bytesLt b.domain a.domain with
    | false => exact Or.inl rfl
    | true => exact Or.inr (bytesLt_asymm h)

theorem byDomain_eq {l l' : List Payload} (hp : l.Perm l') (hn : (l.map Payload.domain).Nodup) : byDomain l = byDomain l' := by
  refine List.Perm.eq_of_pairwise ?_ (byDomain_sorted l) (byDomain_sorted l') ((byDomain_perm l).trans (hp.trans (byDomain_perm l').symm))
  intro a b ha hb h1 h2
  have ha' := (byDomain_perm l).mem_iff.1 ha
  have hb' := hp.mem_iff.2 ((byDomain_perm l').mem_iff.1 hb)
  refine List.inj_on_of_nodup_map hn ha' hb' ?_
  simp only [Bool.not_eq_true'] at h1 h2
  by_contra e
  rcases bytesLt_total e with h | h
  · rw [h] at h2; cases h2
  · rw [h] at h1; cases h1

/-- A row is accepted for another one. -/
def Same (H : Bytes → Bytes) (g w : Payload) : Prop :=
  g.domain = w.domain ∧ g.certIds.map H = w.certIds.map H ∧ colLen g.certIds = colLen w.certIds ∧ g.policyIds.map H = w.policyIds.map H ∧ colLen g.policyIds = colLen w.policyIds

theorem compare_iff (g w : Option Bytes) : compareOptionalID g w = true ↔ g = w := by
  cases g <;> cases w <;> simp [compareOptionalID]

theorem validate_iff (H : Bytes → Bytes) : ∀ gs ws : List Payload, validateLoop H gs (ws.map (expectOf H)) = true ↔ List.Forall₂ (Same H) gs ws
  | [], [] => by simp [validateLoop]
  | [], _ :: _ => by simp [validateLoop]
  | _ :: _, [] => by simp [validateLoop]
  | g :: gs, w :: ws => by
    rw [List.forall₂_cons, ← validate_iff H gs ws, List.map_cons, validateLoop]
    simp only [Bool.and_eq_true, beq_iff_eq, compare_iff, Same, expectOf]
    tauto

theorem same_refl (H : Bytes → Bytes) : ∀ l : List Payload, List.Forall₂ (Same H) l l
  | [] => .nil
  | r :: l => .cons ⟨rfl, rfl, rfl, rfl, rfl⟩ (same_refl H l)

/-! ## The payloads after coalescing -/

theorem recompute_keys (fuel chunk n : Nat) {db db' : DB} (h : recomputeDirty fuel chunk n db = some db') :
    ((db.payloads.map Payload.domain).Nodup → (db'.payloads.map Payload.domain).Nodup) ∧ ((db.domains.map Prod.fst).Nodup → (db'.domains.map Prod.fst).Nodup) := by
  have step : ∀ {db db' : DB} {p k : Nat}, calcDirtyDomains fuel db p chunk = some (db', k) →
      ((db.payloads.map Payload.domain).Nodup → (db'.payloads.map Payload.domain).Nodup) ∧ ((db.domains.map Prod.fst).Nodup → (db'.domains.map Prod.fst).Nodup) := by
    intro db db' p k h
    unfold calcDirtyDomains at h
    dsimp only at h
    split at h
    · cases h; exact ⟨id, id⟩
    · split at h
      · cases h
      · cases h
        exact ⟨fun hn => (replaceInto_nodup Payload.domain _ _ hn).sublist (List.filter_sublist.map _), fun hn => hn.sublist (List.filter_sublist.map _)⟩
  have part : ∀ (p m : Nat) {db db' : DB}, coalescePartition fuel chunk p m db = some db' →
      ((db.payloads.map Payload.domain).Nodup → (db'.payloads.map Payload.domain).Nodup) ∧ ((db.domains.map Prod.fst).Nodup → (db'.domains.map Prod.fst).Nodup) := by
    intro p m
    induction m with
    | zero => intro db db' h; cases h
    | succ m ih =>
      intro db db' h
      unfold coalescePartition at h
      split at h
      · cases h
      · rename_i db1 k h1
        split at h
        · cases h; exact step h1
        · exact ⟨fun hn => (ih h).1 ((step h1).1 hn), fun hn => (ih h).2 ((step h1).2 hn)⟩
  unfold recomputeDirty at h
  generalize List.range 32 = ps at h
  induction ps generalizing db with
  | nil => cases h; exact ⟨id, id⟩
  | cons p ps ih =>
    rw [List.foldlM_cons] at h
    cases h1 : coalescePartition fuel chunk p n db with
    | none => rw [h1] at h; cases h
    | some db1 =>
      rw [h1] at h
      exact ⟨fun hn => (ih h).1 ((part p n h1).1 hn), fun hn => (ih h).2 ((part p n h1).2 hn)⟩

/-! ## The old procedure -/

theorem closureOf_spec (certs : List Cert) (links : List (Bytes × Bytes)) (hk : KeyUnique Cert.id certs) (d : Bytes) (fuel : Nat) (hf : certs.length < fuel) :
    ∃ A, closureOf fuel certs links d = some A ∧ A.Nodup ∧ (∀ c, c ∈ A ↔ InClosure certs links d c) ∧ IsAgg certs links d (glue A) := by
  have hnd : certs.Nodup := List.Nodup.of_map _ hk
  have hlm : ∀ c, c ∈ linked certs links d ↔ c ∈ certs ∧ (d, c.id) ∈ links := by
    intro c
    simp [linked]
  obtain ⟨out, o1, o2, o3, o4, o5⟩ := closureLoop_spec certs hnd (InClosure certs links d) (fun c p h hp he => .parent c p h hp he) fuel
    (linked certs links d) (linked certs links d) (by omega) (fun w h => h)
    (fun c h => ⟨.link c ((hlm c).1 h).1 ((hlm c).1 h).2, ((hlm c).1 h).1⟩) (hnd.filter _) (fun c h _ _ _ => Or.inl h)
  obtain ⟨v, v1, v2⟩ := aggregate_spec certs links hk d fuel hf
  unfold aggregate at v1
  dsimp only at v1
  rw [o1] at v1
  cases v1
  refine ⟨out, o1, o2, fun c => ⟨fun hc => (o3 c hc).1, fun hc => ?_⟩, v2⟩
  induction hc with
  | link c h1 h2 => exact o4 c ((hlm c).2 ⟨h1, h2⟩)
  | parent c p _ hp he ih => exact o5 c ih p hp he

theorem replaceInto_append {κ : Type} [BEq κ] (key : α → κ) (t a b : List α) : replaceInto key (replaceInto key t a) b = replaceInto key t (a ++ b) := by
  unfold replaceInto
  rw [List.foldl_append]

theorem mapM_some {f : α → Option β} {g : α → β} : ∀ l : List α, (∀ x ∈ l, f x = some (g x)) → l.mapM f = some (l.map g)
  | [], _ => rfl
  | x :: l, h => by
    rw [List.mapM_cons, h x List.mem_cons_self, mapM_some l (fun y hy => h y (List.mem_cons_of_mem _ hy))]
    rfl

/-- All rows that the old procedure computes. -/
def allOld (db : DB) (g : Bytes → List Payload) : List Payload :=
  (List.range 32).flatMap (fun p => ((db.dirty.filter (fun r => shardOf r.1 == p)).map Prod.fst).flatMap g)

theorem runOld_eq (fuel : Nat) (db : DB) (g : Bytes → List Payload) (hg : ∀ d, oldRows fuel db d = some (g d)) :
    runOld fuel db = some { db with payloads := replaceInto Payload.domain db.payloads (allOld db g) } := by
  unfold runOld allOld partitionCount
  generalize List.range 32 = ps
  have key : ∀ (ps : List Nat) (pay : List Payload), ps.foldlM (calcOld fuel) { db with payloads := pay } =
      some { db with payloads := replaceInto Payload.domain pay (ps.flatMap (fun p => ((db.dirty.filter (fun r => shardOf r.1 == p)).map Prod.fst).flatMap g)) } := by
    intro ps
    induction ps with
    | nil => intro pay; rfl
    | cons p ps ih =>
      intro pay
      rw [List.foldlM_cons]
      have h1 : calcOld fuel { db with payloads := pay } p = some { db with payloads := replaceInto Payload.domain pay (((db.dirty.filter (fun r => shardOf r.1 == p)).map Prod.fst).flatMap g) } := by
        unfold calcOld
        dsimp only
        have : (List.map Prod.fst (List.filter (fun r => shardOf r.1 == p) db.dirty)).mapM (oldRows fuel { db with payloads := pay }) =
            some ((List.map Prod.fst (List.filter (fun r => shardOf r.1 == p) db.dirty)).map g) := mapM_some _ (fun x _ => hg x)
        rw [this]
        rfl
      rw [h1]
      rw [Option.bind_eq_bind, Option.bind_some, ih, replaceInto_append, List.flatMap_cons]
  exact key ps db.payloads

theorem mem_allOld {db : DB} {g : Bytes → List Payload} {r : Payload} : r ∈ allOld db g ↔ ∃ x ∈ db.dirty, r ∈ g x.1 := by
  unfold allOld
  simp only [List.mem_flatMap, List.mem_map, List.mem_filter, List.mem_range, beq_iff_eq]
  constructor
  · rintro ⟨p, _, d, ⟨x, ⟨hx, _⟩, rfl⟩, hr⟩
    exact ⟨x, hx, hr⟩
  · rintro ⟨x, hx, hr⟩
    refine ⟨shardOf x.1, ?_, x.1, ⟨x, ⟨hx, rfl⟩, rfl⟩, hr⟩
    unfold shardOf
    have := UInt8.toNat_lt (x.1.headD 0)
    omega

/-- Without policies a domain gets the right row. -/
theorem left_only (d : Bytes) (A : List Cert) : (groupRow d (leftJoin A []) ++ groupRow d (rightJoin A [])).eraseDups = if A = [] then [] else [⟨d, glue A, none⟩] := by
  have hl : leftJoin A [] = A.map (fun a => (some a.id, none)) := by
    unfold leftJoin
    simp [List.flatMap_def]
    induction A with
    | nil => rfl
    | cons a A ih => simp_all
  have hr : rightJoin A [] = [] := rfl
  rw [hl, hr]
  unfold groupRow groupConcat glue
  by_cases h : A = []
  · subst h; rfl
  · have h1 : A.map (fun a => (some a.id, (none : Option Bytes))) ≠ [] := by simpa using h
    have h2 : ((A.map (fun a => (some a.id, (none : Option Bytes)))).map Prod.fst).filterMap id = A.map Cert.id := by
      rw [List.map_map, List.filterMap_map]
      induction A with
      | nil => rfl
      | cons a A ih => simp [List.filterMap_cons]
    have h3 : ((A.map (fun a => (some a.id, (none : Option Bytes)))).map Prod.snd).filterMap id = [] := by
      rw [List.map_map, List.filterMap_map, List.filterMap_eq_nil_iff]
      intro a _; rfl
    rw [if_neg h1, if_pos rfl, List.append_nil, h2, h3, if_neg h, if_neg (by simpa using h), if_neg h]
    rfl

/-- With certificates and policies, both columns are too long. -/
theorem both_length (d : Bytes) (A B : List Cert) (hA : A ≠ []) (hB : B ≠ []) (h32 : ∀ a ∈ A, a.id.length = 32) {r : Payload}
    (hr : r ∈ (groupRow d (leftJoin A B) ++ groupRow d (rightJoin A B)).eraseDups) : r.domain = d ∧ colLen r.certIds = 32 * (A.length * B.length) := by
  have hcol : ∀ col : List (Option Bytes), (∀ o ∈ col, ∃ i, o = some i ∧ i.length = 32) → colLen (groupConcat col) = 32 * col.length := by
    intro col hc
    unfold groupConcat colLen
    have h1 : ∀ col : List (Option Bytes), (∀ o ∈ col, ∃ i, o = some i ∧ i.length = 32) → ((col.filterMap id).map List.length).sum = 32 * col.length := by
      intro col
      induction col with
      | nil => intro _; rfl
      | cons o col ih =>
        intro hc
        obtain ⟨i, rfl, hi⟩ := hc o List.mem_cons_self
        simp only [List.filterMap_cons, id, List.map_cons, List.sum_cons, List.length_cons]
        have := ih (fun o ho => hc o (List.mem_cons_of_mem _ ho))
        simp only [id] at this
        omega
    have h2 := h1 col hc
    split
    · rename_i h0; rw [h0] at h2; simpa using h2
    · simp only [Option.map_some, Option.getD_some, Ids.idsToBytes]
      rw [List.length_flatten, ((List.mergeSort_perm _ _).map List.length).sum_eq, h2]
  have hfl : ∀ (X Y : List Cert) (h : Cert → Cert → Option Bytes × Option Bytes), (X.flatMap (fun x => Y.map (h x))).length = X.length * Y.length := by
    intro X Y h
    induction X with
    | nil => simp
    | cons x X ih => rw [List.flatMap_cons, List.length_append, ih, List.length_map, List.length_cons]; ring
  have hl : leftJoin A B = A.flatMap (fun a => B.map (fun b => (some a.id, some b.id))) := by unfold leftJoin; simp [hB]
  have hrr : rightJoin A B = B.flatMap (fun b => A.map (fun a => (some a.id, some b.id))) := by unfold rightJoin; simp [hA]
  rw [List.mem_eraseDups, List.mem_append] at hr
  rcases hr with hr | hr
  · unfold groupRow at hr
    split at hr
    · cases hr
    · rw [List.mem_singleton] at hr
      subst hr
      refine ⟨rfl, ?_⟩
      rw [hcol, List.length_map, hl, hfl A B (fun a b => (some a.id, some b.id))]
      intro o ho
      rw [hl] at ho
      simp only [List.mem_map, List.mem_flatMap] at ho
      obtain ⟨_, ⟨a, ha, b, _, rfl⟩, rfl⟩ := ho
      exact ⟨_, rfl, h32 a ha⟩
  · unfold groupRow at hr
    split at hr
    · cases hr
    · rw [List.mem_singleton] at hr
      subst hr
      refine ⟨rfl, ?_⟩
      rw [hcol, List.length_map, hrr, hfl B A (fun b a => (some a.id, some b.id)), Nat.mul_comm A.length]
      intro o ho
      rw [hrr] at ho
      simp only [List.mem_map, List.mem_flatMap] at ho
      obtain ⟨_, ⟨b, _, a, ha, rfl⟩, rfl⟩ := ho
      exact ⟨_, rfl, h32 a ha⟩

theorem groupRow_domain {d : Bytes} {A B : List Cert} {r : Payload} (hr : r ∈ (groupRow d (leftJoin A B) ++ groupRow d (rightJoin A B)).eraseDups) : r.domain = d := by
  rw [List.mem_eraseDups, List.mem_append] at hr
  have : ∀ rows, r ∈ groupRow d rows → r.domain = d := by
    intro rows h
    unfold groupRow at h
    split at h
    · cases h
    · rw [List.mem_singleton.1 h]
  rcases hr with h | h
  · exact this _ h
  · exact this _ h

end Fpki.Bench
