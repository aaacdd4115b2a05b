import Verif.Model.EndToEnd
import Verif.Props.DbHist
import Verif.Props.Dirty
import Verif.Props.Responder
import Verif.Props.Chains
import Mathlib.Tactic.ByContra
import Mathlib.Tactic.Tauto

/-!
# Lemmas for C91
-/
namespace Fpki.E2E
open Fpki.Db Fpki.Smt Fpki.Dirty
open Fpki.Chains (X509)

/-! ## Trees -/

/-- The bundles one after another, where no batch deletes a stored key lying between two other keys of the batch at the place of its leaf (the bug of C05). -/
inductive SafeRun (H : Bytes → Bytes) (n : Nat) : Node → List (List Entry) → Node → Prop
  | nil (t : Node) : SafeRun H n t [] t
  | cons (t t' : Node) (b : List Entry) (bs : List (List Entry)) (kvs : KVs) (hk : ToSMTInput H b kvs) (hm : ¬ MidDelete 0 t kvs)
      (hr : SafeRun H n (updateRoot n t kvs) bs t') : SafeRun H n t (b :: bs) t'

theorem kvs_mem {H : Bytes → Bytes} {q : Bytes → Option Bytes} {ids : List Bytes} {kvs : KVs} (hnd : ids.Nodup)
    (hk : ToSMTInput H (entriesPreserveMissing q ids) kvs) (k : Bytes) (v : Option Bytes) :
    (k, v) ∈ kvs ↔ k ∈ ids ∧ v = match q k with
      | some p => if p = [] then none else some (H p)
      | none => none := by
  have hids : (entriesPreserveMissing q ids).map Entry.domainID = ids := by
    unfold entriesPreserveMissing
    rw [List.map_map]
    have : (Entry.domainID ∘ fun id => (⟨id, (q id).getD []⟩ : Entry)) = id := rfl
    rw [this, List.map_id]
  have hd : ((entriesPreserveMissing q ids).map Entry.domainID).Nodup := by rw [hids]; exact hnd
  obtain ⟨kvs', _, hu, _, _, hm⟩ := C15_smt_input H _ hd
  cases hu kvs hk
  rw [hm k v]
  constructor
  · rintro ⟨e, he, h1, h2⟩
    unfold entriesPreserveMissing at he
    obtain ⟨id, hid, rfl⟩ := List.mem_map.1 he
    dsimp only at h1 h2
    subst h1
    refine ⟨hid, ?_⟩
    cases hp : q id with
    | none => rw [hp] at h2; simpa using h2
    | some p =>
      rw [hp] at h2
      rcases h2 with ⟨h2, h3⟩ | ⟨h2, h3⟩
      · simp at h2; simp [h2, h3]
      · simp at h2 h3; simp [h2, h3]
  · rintro ⟨hid, rfl⟩
    refine ⟨⟨k, (q k).getD []⟩, List.mem_map.2 ⟨k, hid, rfl⟩, rfl, ?_⟩
    cases hp : q k with
    | none => left; simp
    | some p =>
      by_cases hpe : p = []
      · left; simp [hpe]
      · right; simp [hpe]

theorem bundles_safe {H : Bytes → Bytes} {n : Nat} {q : Bytes → Option Bytes} {t t' : Node} {ebs : List (List Entry)}
    (hrun : SafeRun H n t ebs t') : ∀ (bs : List (List Bytes)) (hist : List KVs), ebs = bs.map (entriesPreserveMissing q) →
    t = run n hist → GoodHist n hist → bs.flatten.Nodup → (∀ id ∈ bs.flatten, 8 * id.length = n) →
    ∃ hist', t' = run n hist' ∧ GoodHist n hist' ∧ ∀ k, mapAfter hist' k = expected H q bs.flatten (mapAfter hist) k := by
  induction hrun with
  | nil t =>
    intro bs hist hbs ht hg _ _
    have : bs = [] := by cases bs with
      | nil => rfl
      | cons _ _ => cases hbs
    subst this
    exact ⟨hist, ht, hg, fun k => by simp [expected]⟩
  | cons t t' b ebs kvs hk hm hr ih =>
    intro bs hist hbs ht hg hnd hlen
    cases bs with
    | nil => cases hbs
    | cons ids bs =>
      rw [List.map_cons, List.cons.injEq] at hbs
      obtain ⟨rfl, hbs⟩ := hbs
      rw [List.flatten_cons] at hnd hlen ⊢
      have hmem := kvs_mem (List.nodup_append.1 hnd).1 hk
      have hids : (entriesPreserveMissing q ids).map Entry.domainID = ids := by
        unfold entriesPreserveMissing
        rw [List.map_map]
        have : (Entry.domainID ∘ fun id => (⟨id, (q id).getD []⟩ : Entry)) = id := rfl
        rw [this, List.map_id]
      have hv : ValidBatch n kvs := toSMTInput_valid hk (by rw [hids]; exact (List.nodup_append.1 hnd).1) (by
        intro e he
        unfold entriesPreserveMissing at he
        obtain ⟨id, hid, rfl⟩ := List.mem_map.1 he
        exact hlen id (List.mem_append_left _ hid))
      have hg' : GoodHist n (hist ++ [kvs]) := .snoc hg hv (by rw [← ht]; exact hm)
      obtain ⟨hist', h1, h2, h3⟩ := ih bs (hist ++ [kvs]) hbs (by rw [Smt.run_append, ht]) hg' (List.nodup_append.1 hnd).2.1
        (fun id h => hlen id (List.mem_append_right _ h))
      refine ⟨hist', h1, h2, ?_⟩
      intro k
      rw [h3 k, mapAfter_append]
      unfold expected
      by_cases hkb : k ∈ bs.flatten
      · rw [if_pos hkb, if_pos (List.mem_append_right _ hkb)]
      · rw [if_neg hkb]
        unfold applyKVs
        by_cases hki : k ∈ ids
        · rw [if_pos (List.mem_append_left _ hki)]
          have := (hv.1.lookup_eq k _).2 ((hmem k _).2 ⟨hki, rfl⟩)
          rw [this]
          cases q k <;> rfl
        · rw [if_neg (by rw [List.mem_append]; tauto)]
          cases hlk : kvs.lookup k with
          | none => rfl
          | some v =>
            have := (hv.1.lookup_eq k v).1 hlk
            exact absurd ((hmem k v).1 this).1 hki

/-- If no dirty domain that is in the tree lost its payload, nothing stored is deleted. -/
theorem safe_of_no_delete {H : Bytes → Bytes} {n : Nat} {q : Bytes → Option Bytes} {t t' : Node} {ebs : List (List Entry)}
    (hrun : SmtFromBundles H n t ebs t') : ∀ (bs : List (List Bytes)) (hist : List KVs), ebs = bs.map (entriesPreserveMissing q) →
    t = run n hist → GoodHist n hist → bs.flatten.Nodup → (∀ id ∈ bs.flatten, 8 * id.length = n) →
    (∀ id ∈ bs.flatten, get 0 t id ≠ none → ∃ p, q id = some p ∧ p ≠ []) → SafeRun H n t ebs t' := by
  induction hrun with
  | nil t => intros; exact .nil t
  | cons t t' b ebs kvs hk hr ih =>
    intro bs hist hbs ht hg hnd hlen hpay
    cases bs with
    | nil => cases hbs
    | cons ids bs =>
      rw [List.map_cons, List.cons.injEq] at hbs
      obtain ⟨rfl, hbs⟩ := hbs
      rw [List.flatten_cons] at hnd hlen hpay
      have hmem := kvs_mem (List.nodup_append.1 hnd).1 hk
      have hids : (entriesPreserveMissing q ids).map Entry.domainID = ids := by
        unfold entriesPreserveMissing
        rw [List.map_map]
        have : (Entry.domainID ∘ fun id => (⟨id, (q id).getD []⟩ : Entry)) = id := rfl
        rw [this, List.map_id]
      have hv : ValidBatch n kvs := toSMTInput_valid hk (by rw [hids]; exact (List.nodup_append.1 hnd).1) (by
        intro e he
        unfold entriesPreserveMissing at he
        obtain ⟨id, hid, rfl⟩ := List.mem_map.1 he
        exact hlen id (List.mem_append_left _ hid))
      have hm : ¬ MidDelete 0 t kvs := by
        rintro ⟨k, h1, h2, _⟩
        obtain ⟨h3, h4⟩ := (hmem k none).1 h1
        obtain ⟨p, h5, h6⟩ := hpay k (List.mem_append_left _ h3) h2
        rw [h5] at h4
        simp [h6] at h4
      have hg' : GoodHist n (hist ++ [kvs]) := .snoc hg hv (by rw [← ht]; exact hm)
      have ht' : updateRoot n t kvs = run n (hist ++ [kvs]) := by rw [Smt.run_append, ht]
      refine .cons t t' _ ebs kvs hk hm (ih bs (hist ++ [kvs]) hbs ht' hg' (List.nodup_append.1 hnd).2.1
        (fun id h => hlen id (List.mem_append_right _ h)) ?_)
      intro id hid hget
      apply hpay id (List.mem_append_right _ hid)
      have h8 := hlen id (List.mem_append_right _ hid)
      rw [ht', hg'.spec.2 id h8, mapAfter_append] at hget
      rw [ht, hg.spec.2 id h8]
      unfold applyKVs at hget
      cases hlk : kvs.lookup id with
      | none => rw [hlk] at hget; exact hget
      | some v =>
        have := ((hmem id v).1 ((hv.1.lookup_eq id v).1 hlk)).1
        exact absurd rfl ((List.nodup_append.1 hnd).2.2 id this id hid)

/-! ## The dirty table -/

theorem allRows_perm (db : DB) (hk : KeyUnique Prod.fst db.dirty) : (allRows (dirtyPart db)).Perm (db.dirty.map Prod.fst) := by
  have hmem : ∀ p d, d ∈ dirtyPart db p ↔ d ∈ db.dirty.map Prod.fst ∧ shardOf d = p := by
    intro p d
    unfold dirtyPart
    rw [List.mem_mergeSort, List.mem_map, List.mem_map]
    constructor
    · rintro ⟨r, hr, rfl⟩
      obtain ⟨h1, h2⟩ := List.mem_filter.1 hr
      exact ⟨⟨r, h1, rfl⟩, by simpa using h2⟩
    · rintro ⟨⟨r, hr, rfl⟩, h⟩
      exact ⟨r, List.mem_filter.2 ⟨hr, by simpa using h⟩, rfl⟩
  refine (List.perm_ext_iff_of_nodup ?_ hk).2 ?_
  · unfold allRows
    rw [List.nodup_flatMap]
    refine ⟨fun p _ => ?_, ?_⟩
    · unfold dirtyPart
      rw [(List.mergeSort_perm _ _).nodup_iff]
      exact (List.Sublist.map _ List.filter_sublist).nodup hk
    · refine List.Pairwise.imp ?_ (List.nodup_range : (List.range numPartitions).Nodup)
      intro a b hab d h1 h2
      exact hab (((hmem a d).1 h1).2.symm.trans ((hmem b d).1 h2).2)
  · intro d
    unfold allRows
    rw [List.mem_flatMap]
    constructor
    · rintro ⟨p, _, h⟩
      exact ((hmem p d).1 h).1
    · intro h
      exact ⟨shardOf d, List.mem_range.2 (shardOf_lt d), (hmem _ d).2 ⟨h, rfl⟩⟩

/-- The bundles are the dirty domains. -/
theorem collect_perm {db : DB} (hk : KeyUnique Prod.fst db.dirty) {max fuel n : Nat} (hmax : 0 < max) (hf : db.dirty.length + 32 < fuel) (hn : db.dirty.length < n)
    {bundles : List (List Bytes)} (h : collect (dirtyPart db) fuel (fun _ => max) n 0 none = some bundles) : bundles.flatten.Perm (db.dirty.map Prod.fst) := by
  have hp := allRows_perm db hk
  have hl : (allRows (dirtyPart db)).length = db.dirty.length := by rw [hp.length_eq, List.length_map]
  obtain ⟨bs, h1, h2, _⟩ := C16_pagination_exact (dirtyPart db) (fun _ => max) (fun _ => hmax) fuel n (by omega) (by omega)
  rw [h] at h1
  cases h1
  exact h2.trans hp

theorem collect_exists {db : DB} (hk : KeyUnique Prod.fst db.dirty) {max fuel n : Nat} (hmax : 0 < max) (hf : db.dirty.length + 32 < fuel) (hn : db.dirty.length < n) :
    ∃ bundles, collect (dirtyPart db) fuel (fun _ => max) n 0 none = some bundles := by
  have hp := allRows_perm db hk
  have hl : (allRows (dirtyPart db)).length = db.dirty.length := by rw [hp.length_eq, List.length_map]
  obtain ⟨bs, h1, _⟩ := C16_pagination_exact (dirtyPart db) (fun _ => max) (fun _ => hmax) fuel n (by omega) (by omega)
  exact ⟨bs, h1⟩

end Fpki.E2E
