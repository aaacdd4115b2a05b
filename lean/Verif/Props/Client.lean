import Verif.Model.Client
import Verif.Props.Wire
import Verif.Props.PayloadApi
import Verif.Props.ExpiryAny

/-!
# C134: the client gets exactly the certificates and policies that were submitted
-/
namespace Fpki.E2E
open Fpki.Db Fpki.Smt Fpki.Dirty Fpki.Ids Fpki.Domain
open Fpki.Responder (PoA PoP GetProof AnswerFor verifyProofByDomain InSync SyncAt getProof_total exH exH_length)
open Fpki.Chains (X509)
open Fpki.PayloadApi (StoredIn Delivers DeliversSome)
open Fpki.Client (fetchAll Hashes)
open Fpki.Wire (Answer Serves apiGetProof readHttp)

/-! ## Specification -/

/-- The bytes of a certificate submitted for one of the names, or of one in its chain. -/
def CertFor (ops : List Op) (names : List Bytes) (p : Bytes) : Prop :=
  ∃ leaf chain, Submitted ops leaf chain ∧ (∃ n ∈ leaf.names, n ∈ names) ∧ ∃ x ∈ leaf :: chain, x.raw = p

/-- The bytes of a policy submitted for one of the names. -/
def PolicyFor (ops : List Op) (names : List Bytes) (p : Bytes) : Prop := ∃ n ∈ names, PolSubmitted ops (n, p)

/-- No hash collisions in what was submitted: among the certificates, among the policies, and between their names and the given ones. -/
structure NoCollision (H : Bytes → Bytes) (ops : List Op) (names : List Bytes) : Prop where
  raws : ∀ l c l' c', Submitted ops l c → Submitted ops l' c' → ∀ x ∈ l :: c, ∀ x' ∈ l' :: c', H x.raw = H x'.raw → x.raw = x'.raw
  payloads : ∀ p p', PolSubmitted ops p → PolSubmitted ops p' → H p.2 = H p'.2 → p.2 = p'.2
  owners : ∀ l c, Submitted ops l c → ∀ n ∈ l.names, ∀ m ∈ names, H n = H m → n = m
  subjects : ∀ p, PolSubmitted ops p → ∀ m ∈ names, H p.1 = H m → p.1 = m

/-! ## What is stored -/

/-- New certificates come with the bytes of a submitted one, under their hash. -/
theorem certs_payload {H : Bytes → Bytes} {db : DB} {leaves : List X509} {chains : List (List X509)} (hl : leaves.length = chains.length) {st : List (DB → DB)}
    (hst : certSteps H db leaves chains = some st) (k : Nat) {c : Cert} (hc : c ∈ (runSteps (st.take k) db).certs) (hn : c ∉ db.certs) :
    ∃ r, PathRow H leaves chains r ∧ r.2.1 = c.id ∧ r.1.raw = c.payload := by
  rw [certSteps_eq H db hl] at hst
  obtain ⟨rows, h1, h2, _⟩ := Chains.C19_unfold_complete H leaves chains hl
  have r1 : ∀ r, r ∈ rows ↔ PathRow H leaves chains r := fun r => by rw [h2.mem_iff, List.mem_flatMap]; rfl
  have r3 : (batchOf H leaves chains).ids = rows.map (fun r => r.2.1) := by simp [batchOf, h1, Chains.ofRows]
  have r5 : (batchOf H leaves chains).raws = rows.map (fun r => r.1.raw) := by simp [batchOf, h1, Chains.ofRows]
  generalize mask db (batchOf H leaves chains) = m at hst
  rw [r3, r5, select_map, select_map] at hst
  have hsub : ∀ r ∈ select m rows, PathRow H leaves chains r := fun r hr => (r1 r).1 (select_subset m rows r hr)
  rcases insertSteps_cases hst with ⟨_, rfl⟩ | ⟨rs, h3, rfl⟩
  · exact absurd (by simpa [runSteps] using hc) hn
  · have ht : ∀ (k : Nat) (a b c d : DB → DB), [a, b, c, d].take (k + 4) = [a, b, c, d] := by intros; simp
    have hin : c ∈ insertIgnore Cert.id db.certs rs := by
      match k with
      | 0 => exact absurd hc hn
      | 1 => exact hc
      | 2 => exact hc
      | 3 => exact hc
      | k + 4 => rw [ht] at hc; exact hc
    rcases mem_insertIgnore Cert.id rs db.certs c hin with h | ⟨h, _⟩
    · exact absurd h hn
    · obtain ⟨j, hj, rfl⟩ := List.mem_iff_getElem.1 h
      obtain ⟨g0, g1⟩ := certRows_getElem _ _ _ _ _ h3
      obtain ⟨e1, _, _, e4⟩ := g1 j rs[j] (List.getElem?_eq_getElem hj)
      rw [List.length_map] at g0
      have hj' : j < (select m rows).length := by omega
      rw [List.getElem?_map, List.getElem?_eq_getElem hj', Option.map_some, Option.some.injEq] at e1 e4
      exact ⟨(select m rows)[j], hsub _ (List.getElem_mem _), e1, e4⟩

/-- New rows of policies come with the bytes of a submitted one, under their hash. -/
theorem policies_payload {H : Bytes → Bytes} {db : DB} {keep : Option Nat} {ps : List (Bytes × Bytes)} {st : List (DB → DB)} (hst : policySteps H db keep ps = some st) (k : Nat) {c : Cert}
    (hc : c ∈ (runSteps (st.take k) db).policies) (hn : c ∉ db.policies) : ∃ p ∈ ps, H p.2 = c.id ∧ p.2 = c.payload := by
  unfold policySteps at hst
  dsimp only at hst
  generalize policyMask H db keep ps = m at hst
  have hsub : ∀ p ∈ select m ps, p ∈ ps := fun p hp => select_subset m ps p hp
  have e1 : ∀ {β : Type} (f : Bytes × Bytes → β), unmasked m (ps.map f) = (select m ps).map f := fun f => select_map m f ps
  rw [e1, e1, e1] at hst
  generalize select m ps = sel at hst hsub
  unfold insertPolicySteps at hst
  split at hst
  · cases hst
    exact absurd (by simpa [runSteps] using hc) hn
  · cases hr : certRows (sel.map (fun p => H p.2)) (List.replicate (sel.map (fun p => H p.2)).length none)
        (List.replicate (sel.map (fun p => H p.2)).length year3000) (sel.map Prod.snd) with
    | none => rw [hr] at hst; cases hst
    | some rows =>
      rw [hr] at hst
      cases hst
      have ht : ∀ (k : Nat) (a b c d : DB → DB), [a, b, c, d].take (k + 4) = [a, b, c, d] := by intros; simp
      have hin : c ∈ replaceInto Cert.id db.policies rows := by
        match k with
        | 0 => exact absurd hc hn
        | 1 => exact absurd hc hn
        | 2 => exact absurd hc hn
        | 3 => exact hc
        | k + 4 => rw [ht] at hc; exact hc
      rcases mem_replaceInto_sub Cert.id rows _ c hin with h | h
      · exact absurd h hn
      · obtain ⟨j, hj, rfl⟩ := List.mem_iff_getElem.1 h
        obtain ⟨g0, g1⟩ := certRows_getElem _ _ _ _ _ hr
        obtain ⟨e1, _, _, e4⟩ := g1 j rows[j] (List.getElem?_eq_getElem hj)
        rw [List.length_map] at g0
        have hj' : j < sel.length := by omega
        rw [List.getElem?_map, List.getElem?_eq_getElem hj', Option.map_some, Option.some.injEq] at e1 e4
        exact ⟨sel[j], hsub _ (List.getElem_mem _), e1, e4⟩

theorem coalesce_same {fuel p chunk n : Nat} {db db' : DB} (h : calcDirtyDomains fuel db p chunk = some (db', n)) : db'.certs = db.certs ∧ db'.policies = db.policies := by
  unfold calcDirtyDomains at h
  dsimp only at h
  split at h
  · cases h
    exact ⟨rfl, rfl⟩
  · split at h
    · cases h
    · cases h
      exact ⟨rfl, rfl⟩

/-- C134: after every history, with interruptions and pruning at any place, every stored certificate and policy is one that was submitted, byte for byte, and its ID is the hash of these
bytes. -/
theorem C134_genuine (H : Bytes → Bytes) (ops : List Op) (s : Sys) (hrun : Run H ops s) :
    (∀ c ∈ s.db.certs, H c.payload = c.id ∧ ∃ leaf chain, Submitted ops leaf chain ∧ ∃ x ∈ leaf :: chain, x.raw = c.payload) ∧
    (∀ c ∈ s.db.policies, H c.payload = c.id ∧ ∃ subject, PolSubmitted ops (subject, c.payload)) := by
  induction hrun with
  | nil => exact ⟨fun c hc => (by cases hc), fun c hc => (by cases hc)⟩
  | snoc ops s s' op _ hst ih =>
    obtain ⟨ih1, ih2⟩ := ih
    have hsub : ∀ l c, Submitted ops l c → Submitted (ops ++ [op]) l c := fun l c ⟨a, b, k, h2, h3⟩ => ⟨a, b, k, List.mem_append_left _ h2, h3⟩
    have ih1 : ∀ c ∈ s.db.certs, H c.payload = c.id ∧ ∃ leaf chain, Submitted (ops ++ [op]) leaf chain ∧ ∃ x ∈ leaf :: chain, x.raw = c.payload := fun c hc =>
      ⟨(ih1 c hc).1, by obtain ⟨l, ch, h1, h2⟩ := (ih1 c hc).2; exact ⟨l, ch, hsub _ _ h1, h2⟩⟩
    have ih2 : ∀ c ∈ s.db.policies, H c.payload = c.id ∧ ∃ subject, PolSubmitted (ops ++ [op]) (subject, c.payload) := fun c hc =>
      ⟨(ih2 c hc).1, by obtain ⟨l, h1⟩ := (ih2 c hc).2; exact ⟨l, polSub_append.2 (.inl h1)⟩⟩
    cases hst with
    | certs leaves chains k st hl hst =>
      refine ⟨fun c hc => ?_, fun c hc => ih2 c (by rw [← (certs_done hl hst k).policies]; exact hc)⟩
      by_cases hn : c ∈ s.db.certs
      · exact ih1 c hn
      · obtain ⟨r, h1, h2, h3⟩ := certs_payload hl hst k hc hn
        obtain ⟨leaf, chain, h4, j, x, h5, rfl⟩ := pathRow_iff.1 h1
        dsimp only at h2 h3
        exact ⟨by rw [← h3, ← h2], leaf, chain, ⟨leaves, chains, k, by simp, h4⟩, x, List.mem_of_getElem? h5, h3⟩
    | policies keep ps k st hst =>
      refine ⟨fun c hc => ih1 c (by rw [← (policies_done hst k).certs]; exact hc), fun c hc => ?_⟩
      by_cases hn : c ∈ s.db.policies
      · exact ih2 c hn
      · obtain ⟨p, h1, h2, h3⟩ := policies_payload hst k hc hn
        exact ⟨by rw [← h3, h2], p.1, polSub_append.2 (.inr (polSub_policies.2 (by rw [← h3]; exact h1)))⟩
    | prune cut fuel db' hp =>
      obtain ⟨h1, _, _, _, _, h6, _⟩ := C21_prune_result fuel s.db db' cut hp
      exact ⟨fun c hc => ih1 c (h1.subset hc), fun c hc => ih2 c (by rw [← h6]; exact hc)⟩
    | pruneCut cut fuel db' hp => exact ⟨ih1, ih2⟩
    | coalesce p fuel chunk n db' h1 h2 h3 hcd =>
      obtain ⟨e1, e2⟩ := coalesce_same hcd
      exact ⟨fun c hc => ih1 c (by rw [← e1]; exact hc), fun c hc => ih2 c (by rw [← e2]; exact hc)⟩
    | smt max t' hmax hw hu => exact ⟨ih1, ih2⟩
    | finish max t' hmax hw hu => exact ⟨ih1, ih2⟩
    | reload => exact ⟨ih1, ih2⟩

/-! ## What is fetched -/

theorem length_map_some {l : List Bytes} : (l.map some).length = l.length := List.length_map _

/-- If every ID is stored, every payload is there. -/
theorem fetch_stored {H : Bytes → Bytes} {db : DB} {k : PayloadApi.Kind} {query : List Bytes → List (Bytes × Bytes)} (hq : Delivers db k query)
    (hf : ∀ i p q, StoredIn db k i p → StoredIn db k i q → p = q) (hg : ∀ i p, StoredIn db k i p → H p = i) {order : List Bytes} (hl : ∀ i ∈ order, i.length = 32)
    (hs : ∀ i ∈ order, ∃ p, StoredIn db k i p) : ∃ ps : List Bytes, fetchAll query order = some (ps.map some) ∧ ps.map H = order ∧ ∀ p, p ∈ ps ↔ ∃ i ∈ order, StoredIn db k i p := by
  by_cases hne : order = []
  · subst hne
    exact ⟨[], rfl, rfl, by simp⟩
  · obtain ⟨body, answers, h1, h2, h3, h4⟩ := PayloadApi.C78_answer_partial hq hf order hne hl
    have h5 : ∀ (i : Nat) (id : Bytes), order[i]? = some id → ∃ p, answers[i]? = some (some p) ∧ StoredIn db k id p := by
      intro i id hi
      obtain ⟨a, h6, h7⟩ := h4 i id hi
      obtain ⟨p, hp⟩ := hs id (List.mem_of_getElem? hi)
      exact ⟨p, by rw [h6, (h7 p).2 hp], hp⟩
    have h6 : answers = (answers.map (·.getD [])).map some := by
      apply List.ext_getElem?
      intro i
      by_cases hi : i < order.length
      · obtain ⟨p, h7, _⟩ := h5 i _ (List.getElem?_eq_getElem hi)
        simp [h7]
      · rw [List.getElem?_eq_none (by omega), List.getElem?_eq_none (by simp; omega)]
    refine ⟨answers.map (·.getD []), ?_, ?_, ?_⟩
    · unfold fetchAll
      rw [if_neg (by simpa using hne), h1]
      dsimp only
      rw [h2]
      dsimp only
      rw [if_pos h3.symm, ← h6]
    · apply List.ext_getElem?
      intro i
      by_cases hi : i < order.length
      · obtain ⟨p, h7, h8⟩ := h5 i _ (List.getElem?_eq_getElem hi)
        simp only [List.getElem?_map, h7, Option.map_some, Option.getD_some]
        rw [hg _ _ h8, List.getElem?_eq_getElem hi]
      · rw [List.getElem?_eq_none (by simp; omega), List.getElem?_eq_none (by omega)]
    · intro p
      constructor
      · intro hp
        obtain ⟨i, hi, he⟩ := List.mem_iff_getElem.1 hp
        have hi' : i < order.length := by
          rw [List.length_map] at hi
          omega
        obtain ⟨q, h7, h8⟩ := h5 i _ (List.getElem?_eq_getElem hi')
        have : (answers.map (·.getD []))[i]? = some p := by rw [List.getElem?_eq_getElem hi, he]
        rw [List.getElem?_map, h7] at this
        simp only [Option.map_some, Option.getD_some, Option.some.injEq] at this
        subst this
        exact ⟨_, List.getElem_mem hi', h8⟩
      · rintro ⟨id, hid, hp⟩
        obtain ⟨i, hi⟩ := List.getElem?_of_mem hid
        obtain ⟨q, h7, h8⟩ := h5 i _ hi
        rw [hf _ _ _ hp h8]
        apply List.mem_of_getElem? (i := i)
        rw [List.getElem?_map, h7]
        rfl

/-- C134: whatever the client asks for and whenever, even if the rows get lost on the way: a payload it gets has the ID it asked for as its hash, and is one that was submitted, byte for byte. -/
theorem C134_payloads (H : Bytes → Bytes) (ops : List Op) (s : Sys) (hrun : Run H ops s) (k : PayloadApi.Kind) (query : List Bytes → List (Bytes × Bytes)) (hq : DeliversSome s.db k query) (order : List Bytes)
    (hl : ∀ i ∈ order, i.length = 32) (answers : List (Option Bytes)) (h : fetchAll query order = some answers) :
    answers.length = order.length ∧ ∀ (j : Nat) (p : Bytes), answers[j]? = some (some p) → order[j]? = some (H p) ∧
      ((∃ leaf chain, Submitted ops leaf chain ∧ ∃ x ∈ leaf :: chain, x.raw = p) ∨ ∃ subject, PolSubmitted ops (subject, p)) := by
  obtain ⟨g1, g2⟩ := C134_genuine H ops s hrun
  unfold fetchAll at h
  split at h
  · rename_i h0
    cases h
    exact ⟨h0.symm, fun j p hp => by simp at hp⟩
  · split at h
    · rename_i h0 _ body hb
      have hne : order ≠ [] := by
        intro e
        rw [e] at h0
        exact h0 rfl
      unfold PayloadApi.apiGetPayloads at hb
      rw [PayloadApi.C78_request_roundtrip order hl] at hb
      dsimp only at hb
      rw [PayloadApi.retrieve_eq hne] at hb
      cases hb
      rw [PayloadApi.C78_body_roundtrip] at h
      dsimp only at h
      rw [if_pos (by simp)] at h
      cases h
      refine ⟨by simp, fun j p hp => ?_⟩
      rw [List.getElem?_map] at hp
      cases hid : order[j]? with
      | none => rw [hid] at hp; cases hp
      | some id =>
        rw [hid] at hp
        simp only [Option.map_some, Option.some.injEq] at hp
        obtain ⟨all, h1, h2⟩ := hq order
        obtain ⟨_, hst⟩ := (PayloadApi.mem_selected s.db k order id p).1 (h1.mem_iff.1 (h2.subset (PayloadApi.readRows_some _ _ _ hp)))
        have hc : (∃ c ∈ s.db.certs, c.id = id ∧ c.payload = p) → id = H p ∧ ((∃ leaf chain, Submitted ops leaf chain ∧ ∃ x ∈ leaf :: chain, x.raw = p) ∨ ∃ subject, PolSubmitted ops (subject, p)) := by
          rintro ⟨c, hc, e1, e2⟩
          obtain ⟨k1, k2⟩ := g1 c hc
          rw [e2] at k1 k2
          exact ⟨by rw [k1, e1], .inl k2⟩
        have hp : (∃ c ∈ s.db.policies, c.id = id ∧ c.payload = p) → id = H p ∧ ((∃ leaf chain, Submitted ops leaf chain ∧ ∃ x ∈ leaf :: chain, x.raw = p) ∨ ∃ subject, PolSubmitted ops (subject, p)) := by
          rintro ⟨c, hc, e1, e2⟩
          obtain ⟨k1, k2⟩ := g2 c hc
          rw [e2] at k1 k2
          exact ⟨by rw [k1, e1], .inr k2⟩
        have key : id = H p ∧ ((∃ leaf chain, Submitted ops leaf chain ∧ ∃ x ∈ leaf :: chain, x.raw = p) ∨ ∃ subject, PolSubmitted ops (subject, p)) := by
          cases k with
          | certificates => exact hc hst
          | policies => exact hp hst
          | both => exact hst.elim hc hp
        exact ⟨by rw [key.1], key.2⟩
    · cases h

/-! ## The whole way -/

/-- The stored payload of an ID is unique. -/
theorem stored_unique {db : DB} (hk : Keys db) {k : PayloadApi.Kind} (hkk : k = .certificates ∨ k = .policies) : ∀ i p q, StoredIn db k i p → StoredIn db k i q → p = q := by
  have uniq : ∀ t : List Cert, KeyUnique Cert.id t → ∀ c ∈ t, ∀ d ∈ t, c.id = d.id → c = d := fun t ht c hc d hd he => List.inj_on_of_nodup_map ht hc hd he
  rcases hkk with rfl | rfl
  · rintro i p q ⟨c, hc, h1, rfl⟩ ⟨d, hd, h2, rfl⟩
    rw [uniq _ hk.certs c hc d hd (h1.trans h2.symm)]
  · rintro i p q ⟨c, hc, h1, rfl⟩ ⟨d, hd, h2, rfl⟩
    rw [uniq _ hk.policies c hc d hd (h1.trans h2.symm)]

theorem SafeHist.run {H : Bytes → Bytes} {ops : List Op} {s : Sys} (h : SafeHist H ops s) : Run H ops s := by
  induction h with
  | nil => exact .nil
  | snoc ops s s' op _ _ hst ih => exact .snoc ops s s' op ih hst

/-- C134 (partial: safe steps, and a name that is not dirty): no ID in an answer is dangling. The client gets a payload for every ID of a certificate and of a policy in the answer, in any order of
asking, and their hashes are the IDs. -/
theorem C134_no_dangling_partial (H : Bytes → Bytes) (hH : ∀ x, (H x).length = 32) (psl : Psl) (ops : List Op) (s : Sys) (hrun : SafeHist H ops s) (hserved : s.served = s.tree)
    (name : Bytes) (as : List Responder.Response) (h : GetProof H psl s.served (tableOf s.db) name (some as)) (a : Responder.Response) (ha : a ∈ as) (hnd : ¬ IsDirty s.db (H a.domainName))
    (qc qp : List Bytes → List (Bytes × Bytes)) (hqc : Delivers s.db .certificates qc) (hqp : Delivers s.db .policies qp) :
    (∀ order, (∀ i, i ∈ order ↔ i ∈ bytesToIDs a.certIDs) → ∃ ps : List Bytes, fetchAll qc order = some (ps.map some) ∧ ps.map H = order) ∧
    (∀ order, (∀ i, i ∈ order ↔ i ∈ bytesToIDs a.policyIDs) → ∃ ps : List Bytes, fetchAll qp order = some (ps.map some) ∧ ps.map H = order) := by
  have hi := safe_sinv hH hrun
  obtain ⟨g1, g2⟩ := C134_genuine H ops s hrun.run
  obtain ⟨_, h2⟩ := C91_answers_partial H hH psl ops s hrun hserved name _ h
  obtain ⟨_, _, _, cs, ps, _, _, h6, h7, h8, h9⟩ := h2 as rfl a ha hnd
  have hcs : ∀ i ∈ cs, i.length = 32 ∧ ∃ p, StoredIn s.db .certificates i p := by
    intro i hi'
    obtain ⟨c, hc, rfl⟩ := (h6 i).1 hi'
    exact ⟨hi.len.certs c hc.mem, _, c, hc.mem, rfl, rfl⟩
  have hps : ∀ i ∈ ps, i.length = 32 ∧ ∃ p, StoredIn s.db .policies i p := by
    intro i hi'
    obtain ⟨⟨c, hc, rfl⟩, _⟩ := (h7 i).1 hi'
    exact ⟨hi.len.policies c hc, _, c, hc, rfl, rfl⟩
  have hids : (∀ i ∈ bytesToIDs a.certIDs, i ∈ cs) ∧ ∀ i ∈ bytesToIDs a.policyIDs, i ∈ ps := by
    by_cases hp : a.proofType = PoP
    · obtain ⟨k1, k2, _⟩ := h9 hp
      rw [k1, k2]
      have e1 := C14_ids_roundtrip cs (fun x hx => (hcs x hx).1)
      have e2 := C14_ids_roundtrip ps (fun x hx => (hps x hx).1)
      unfold idsToBytes at e1 e2
      rw [e1, e2]
      exact ⟨fun i hi => hi, fun i hi => hi⟩
    · have : a.certIDs = [] ∧ a.policyIDs = [] := by
        unfold GetProof at h
        split at h
        · cases h
        · obtain ⟨as', h1, h3⟩ := h
          cases h3
          obtain ⟨part, _, hans⟩ := forall2_mem h1 ha
          unfold AnswerFor at hans
          dsimp only at hans
          split at hans
          · obtain ⟨v, _, rfl⟩ := hans
            exact absurd rfl hp
          · subst hans
            exact ⟨rfl, rfl⟩
      rw [this.1, this.2, ids_nil]
      simp
  constructor
  · intro order ho
    obtain ⟨l, h3, h4, _⟩ := fetch_stored (H := H) hqc (stored_unique hi.inv.keys (.inl rfl)) (fun i p ⟨c, hc, e1, e2⟩ => by rw [← e2, ← e1]; exact (g1 c hc).1)
      (fun i hi => (hcs i (hids.1 i ((ho i).1 hi))).1) (fun i hi => (hcs i (hids.1 i ((ho i).1 hi))).2)
    exact ⟨l, h3, h4⟩
  · intro order ho
    obtain ⟨l, h3, h4, _⟩ := fetch_stored (H := H) hqp (stored_unique hi.inv.keys (.inr rfl)) (fun i p ⟨c, hc, e1, e2⟩ => by rw [← e2, ← e1]; exact (g2 c hc).1)
      (fun i hi => (hps i (hids.2 i ((ho i).1 hi))).1) (fun i hi => (hps i (hids.2 i ((ho i).1 hi))).2)
    exact ⟨l, h3, h4⟩

/-- What C91 says about all answers together. -/
theorem shown_ids {H : Bytes → Bytes} (hH : ∀ x, (H x).length = 32) {psl : Psl} {ops : List Op} {s : Sys} (hrun : Run H (ops ++ [.finish, .reload]) s)
    (hn : ∀ op ∈ ops, op.NoPrune) (hcm : ∀ op ∈ ops, op.Complete) (hc : Consistent H ops) {name : Bytes} {rs : List Responder.Response}
    (h : GetProof H psl s.served (tableOf s.db) name (some rs)) {parts : List Bytes} (hp : parseDomainName psl name = some parts) :
    (∀ i, (∃ r ∈ rs, i ∈ bytesToIDs r.certIDs) ↔ ∃ n ∈ parts, Belongs H ops n i) ∧ ∀ i, (∃ r ∈ rs, i ∈ bytesToIDs r.policyIDs) ↔ ∃ n ∈ parts, PolBelongs H ops n i := by
  obtain ⟨h1, h2⟩ := C91_end_to_end_partial H hH psl ops s hrun hn hcm hc name _ h
  rw [hp] at h1
  simp only [Option.map_some, Option.some.injEq] at h1
  have key : ∀ r ∈ rs, (∀ i, i ∈ bytesToIDs r.certIDs ↔ Belongs H ops r.domainName i) ∧ ∀ i, i ∈ bytesToIDs r.policyIDs ↔ PolBelongs H ops r.domainName i := by
    intro r hr
    obtain ⟨_, _, _, g1, g2⟩ := h2 rs rfl r hr
    by_cases hpop : r.proofType = PoP
    · obtain ⟨_, ⟨cs, _, c1, c2⟩, ⟨ps, _, p1, p2⟩⟩ := g2 hpop
      have e1 := C14_ids_roundtrip cs (fun x hx => by obtain ⟨_, _, _, _, _, _, rfl⟩ := (c1 x).1 hx; exact hH _)
      have e2 := C14_ids_roundtrip ps (fun x hx => by obtain ⟨_, _, _, rfl⟩ := (p1 x).1 hx; exact hH _)
      unfold idsToBytes at e1 e2
      rw [c2, p2, e1, e2]
      exact ⟨c1, p1⟩
    · have : r.certIDs = [] ∧ r.policyIDs = [] := by
        unfold GetProof at h
        split at h
        · cases h
        · obtain ⟨as', h1, h3⟩ := h
          cases h3
          obtain ⟨part, _, hans⟩ := forall2_mem h1 hr
          unfold AnswerFor at hans
          dsimp only at hans
          split at hans
          · obtain ⟨v, _, rfl⟩ := hans
            exact absurd rfl hpop
          · subst hans
            exact ⟨rfl, rfl⟩
      rw [this.1, this.2, ids_nil]
      rw [g1] at hpop
      exact ⟨fun i => ⟨fun hi => by simp at hi, fun hb => absurd ⟨i, .inl hb⟩ hpop⟩, fun i => ⟨fun hi => by simp at hi, fun hb => absurd ⟨i, .inr hb⟩ hpop⟩⟩
  constructor
  · intro i
    rw [← h1]
    constructor
    · rintro ⟨r, hr, hi⟩
      exact ⟨_, List.mem_map.2 ⟨r, hr, rfl⟩, ((key r hr).1 i).1 hi⟩
    · rintro ⟨n, hn, hi⟩
      obtain ⟨r, hr, rfl⟩ := List.mem_map.1 hn
      exact ⟨r, hr, ((key r hr).1 i).2 hi⟩
  · intro i
    rw [← h1]
    constructor
    · rintro ⟨r, hr, hi⟩
      exact ⟨_, List.mem_map.2 ⟨r, hr, rfl⟩, ((key r hr).2 i).1 hi⟩
    · rintro ⟨n, hn, hi⟩
      obtain ⟨r, hr, rfl⟩ := List.mem_map.1 hn
      exact ⟨r, hr, ((key r hr).2 i).2 hi⟩

theorem sub_more {ops : List Op} {l : X509} {c : List X509} : Submitted (ops ++ [.finish, .reload]) l c ↔ Submitted ops l c := by
  constructor
  · rintro ⟨a, b, k, h2, h3⟩
    refine ⟨a, b, k, ?_, h3⟩
    simpa using h2
  · rintro ⟨a, b, k, h2, h3⟩
    exact ⟨a, b, k, List.mem_append_left _ h2, h3⟩

theorem polSub_more {ops : List Op} {p : Bytes × Bytes} : PolSubmitted (ops ++ [.finish, .reload]) p ↔ PolSubmitted ops p := by
  constructor
  · rintro ⟨a, b, k, h2, h3⟩
    refine ⟨a, b, k, ?_, h3⟩
    simpa using h2
  · rintro ⟨a, b, k, h2, h3⟩
    exact ⟨a, b, k, List.mem_append_left _ h2, h3⟩

theorem forall2_entries {as : List Answer} {rs : List Responder.Response} (h : List.Forall₂ Wire.Shows as rs) (i : Bytes) :
    ((∃ a ∈ as, ∃ e, a.entry = some e ∧ i ∈ bytesToIDs (e.certIDs.getD [])) ↔ ∃ r ∈ rs, i ∈ bytesToIDs r.certIDs) ∧
    ((∃ a ∈ as, ∃ e, a.entry = some e ∧ i ∈ bytesToIDs (e.policyIDs.getD [])) ↔ ∃ r ∈ rs, i ∈ bytesToIDs r.policyIDs) := by
  induction h with
  | nil => simp
  | @cons a r as rs hs _ ih =>
    obtain ⟨e, he, _, _, _, e1, e2⟩ := hs.entry
    simp only [List.mem_cons, exists_eq_or_imp, he, Option.some.injEq, ih.1, ih.2]
    constructor
    · exact or_congr ⟨by rintro ⟨_, rfl, h⟩; rw [← e1]; exact h, fun h => ⟨e, rfl, by rw [e1]; exact h⟩⟩ Iff.rfl
    · exact or_congr ⟨by rintro ⟨_, rfl, h⟩; rw [← e2]; exact h, fun h => ⟨e, rfl, by rw [e2]; exact h⟩⟩ Iff.rfl

/-- C134 (partial: as in C91, and no hash collisions in what was submitted): certificates and policies were submitted and the update is finished. A client asks for a name over HTTP: it reads the
answers, one per name from the e2LD to the full name, and all of them verify. It collects the IDs of all answers and asks for their payloads, in any order: it gets exactly the bytes of the
certificates submitted for these names, with their chains, and exactly the bytes of the policies submitted for them; the hashes are as they should be. -/
theorem C134_client_partial (H : Bytes → Bytes) (hH : ∀ x, (H x).length = 32) (psl : Psl) (hpsl : IsPsl psl) (ops : List Op) (s : Sys) (hrun : Run H (ops ++ [.finish, .reload]) s)
    (hn : ∀ op ∈ ops, op.NoPrune) (hcm : ∀ op ∈ ops, op.Complete) (hc : Consistent H ops) (sth : Option Bytes) (name : Bytes) (parts : List Bytes) (hparts : parseDomainName psl name = some parts)
    (hnc : NoCollision H ops parts) (as : List Answer) (h : Serves H psl s.served (tableOf s.db) sth name (some as))
    (qc qp : List Bytes → List (Bytes × Bytes)) (hqc : Delivers s.db .certificates qc) (hqp : Delivers s.db .policies qp) :
    (∃ body, apiGetProof (some as) = .ok body ∧ readHttp body = some as) ∧
    as.map (fun a => (a.entry.map Wire.Entry.name).getD []) = parts ∧
    (∀ a ∈ as, ∃ t : Nat, Wire.verify H (some a) = .ok t true) ∧
    (∀ order, (∀ i, i ∈ order ↔ ∃ a ∈ as, ∃ e, a.entry = some e ∧ i ∈ bytesToIDs (e.certIDs.getD [])) →
      ∃ ps : List Bytes, fetchAll qc order = some (ps.map some) ∧ Hashes H order (ps.map some) ∧ ∀ p, p ∈ ps ↔ CertFor ops parts p) ∧
    (∀ order, (∀ i, i ∈ order ↔ ∃ a ∈ as, ∃ e, a.entry = some e ∧ i ∈ bytesToIDs (e.policyIDs.getD [])) →
      ∃ ps : List Bytes, fetchAll qp order = some (ps.map some) ∧ Hashes H order (ps.map some) ∧ ∀ p, p ∈ ps ↔ PolicyFor ops parts p) := by
  have hmore : ∀ op ∈ [Op.finish, Op.reload], op.NoPrune ∧ op.Complete := by simp [Op.NoPrune, Op.Complete]
  have hn' : ∀ op ∈ ops ++ [.finish, .reload], op.NoPrune := fun op ho => (List.mem_append.1 ho).elim (hn op) (fun h => (hmore op h).1)
  have hcm' : ∀ op ∈ ops ++ [.finish, .reload], op.Complete := fun op ho => (List.mem_append.1 ho).elim (hcm op) (fun h => (hmore op h).2)
  have hc' : Consistent H (ops ++ [.finish, .reload]) :=
    ⟨fun l c l' c' hl hl' => hc.certs l c l' c' (sub_more.1 hl) (sub_more.1 hl'), fun p p' hp hp' => hc.policies p p' (polSub_more.1 hp) (polSub_more.1 hp')⟩
  have hh := run_holds hH hrun hn' hcm' hc'
  have hsafe := (noPrune_safe hH hrun hn').1
  have hi := safe_sinv hH hsafe
  obtain ⟨hserved, hdirty⟩ := steady_end (hsafe.steady hcm')
  obtain ⟨g1, g2⟩ := C134_genuine H _ s hrun
  obtain ⟨hist, hgood, htree⟩ := hi.tree
  have hsync : InSync H (run 256 hist) (tableOf s.db) := by
    intro id hid
    have := hi.sync id hid (by simp [IsDirty, hdirty])
    rw [htree] at this
    exact this
  rw [hserved] at h
  have h' := h
  rw [htree] at h'
  obtain ⟨w1, _, w2, w3⟩ := Wire.C103_accepted_partial H hH psl hpsl hist hgood (tableOf s.db) hsync sth name as h'
  rw [hparts, Option.some.injEq] at w2
  obtain ⟨rs, hg, hf, _⟩ := h
  rw [← hserved] at hg
  obtain ⟨s1, s2⟩ := shown_ids hH hrun hn hcm hc hg hparts
  refine ⟨w1, w2, fun a ha => by obtain ⟨_, t, _, ht⟩ := w3 a ha; exact ⟨t, ht⟩, ?_, ?_⟩
  · intro order ho
    have ho' : ∀ i, i ∈ order ↔ ∃ n ∈ parts, Belongs H ops n i := fun i => by rw [ho, (forall2_entries hf i).1, s1]
    have hst : ∀ i ∈ order, ∃ p, StoredIn s.db .certificates i p := by
      intro i hio
      obtain ⟨n, _, leaf, chain, k1, _, x, k2, rfl⟩ := (ho' i).1 hio
      obtain ⟨j, hj⟩ := List.getElem?_of_mem k2
      obtain ⟨c, c1, c2⟩ := hh.stored _ (subRow_iff.2 ⟨leaf, chain, sub_more.2 k1, j, x, hj, rfl⟩)
      exact ⟨_, c, c1, c2, rfl⟩
    have hgen : ∀ i p, StoredIn s.db .certificates i p → H p = i ∧ ∃ leaf chain, Submitted ops leaf chain ∧ ∃ x ∈ leaf :: chain, x.raw = p := by
      rintro i p ⟨c, hcc, rfl, rfl⟩
      obtain ⟨k1, l, ch, k2, k3⟩ := g1 c hcc
      exact ⟨k1, l, ch, sub_more.1 k2, k3⟩
    obtain ⟨ps, f1, f2, f3⟩ := fetch_stored (H := H) hqc (stored_unique hi.inv.keys (.inl rfl)) (fun i p hp => (hgen i p hp).1)
      (fun i hio => by obtain ⟨n, _, leaf, chain, k1, _, x, k2, rfl⟩ := (ho' i).1 hio; exact hH _) hst
    refine ⟨ps, f1, fun i => by rw [← f2]; simp, fun p => ?_⟩
    rw [f3]
    constructor
    · rintro ⟨i, hio, hp⟩
      obtain ⟨m, hm, leaf, chain, k1, ⟨n, k2, k3⟩, x, k4, rfl⟩ := (ho' i).1 hio
      obtain ⟨e1, leaf', chain', e2, x', e3, rfl⟩ := hgen _ _ hp
      exact ⟨leaf, chain, k1, ⟨n, k2, by rw [hnc.owners leaf chain k1 n k2 m hm k3]; exact hm⟩, x, k4, hnc.raws _ _ _ _ k1 e2 x k4 x' e3 e1.symm⟩
    · rintro ⟨leaf, chain, k1, ⟨n, k2, k3⟩, x, k4, rfl⟩
      have hio := (ho' (H x.raw)).2 ⟨n, k3, leaf, chain, k1, ⟨n, k2, rfl⟩, x, k4, rfl⟩
      obtain ⟨p, hp⟩ := hst _ hio
      obtain ⟨e1, leaf', chain', e2, x', e3, rfl⟩ := hgen _ _ hp
      refine ⟨_, hio, ?_⟩
      rw [hnc.raws _ _ _ _ k1 e2 x k4 x' e3 e1.symm]
      rw [hnc.raws _ _ _ _ k1 e2 x k4 x' e3 e1.symm] at hp
      exact hp
  · intro order ho
    have ho' : ∀ i, i ∈ order ↔ ∃ n ∈ parts, PolBelongs H ops n i := fun i => by rw [ho, (forall2_entries hf i).2, s2]
    have hst : ∀ i ∈ order, ∃ p, StoredIn s.db .policies i p := by
      intro i hio
      obtain ⟨n, _, p, k1, _, rfl⟩ := (ho' i).1 hio
      obtain ⟨c, c1, c2⟩ := (hh.pols _).2 ⟨p, polSub_more.2 k1, rfl⟩
      exact ⟨_, c, c1, c2, rfl⟩
    have hgen : ∀ i p, StoredIn s.db .policies i p → H p = i ∧ ∃ subject, PolSubmitted ops (subject, p) := by
      rintro i p ⟨c, hcc, rfl, rfl⟩
      obtain ⟨k1, sub, k2⟩ := g2 c hcc
      exact ⟨k1, sub, polSub_more.1 k2⟩
    obtain ⟨ps, f1, f2, f3⟩ := fetch_stored (H := H) hqp (stored_unique hi.inv.keys (.inr rfl)) (fun i p hp => (hgen i p hp).1)
      (fun i hio => by obtain ⟨n, _, p, k1, _, rfl⟩ := (ho' i).1 hio; exact hH _) hst
    refine ⟨ps, f1, fun i => by rw [← f2]; simp, fun p => ?_⟩
    rw [f3]
    constructor
    · rintro ⟨i, hio, hp⟩
      obtain ⟨m, hm, q, k1, k2, rfl⟩ := (ho' i).1 hio
      obtain ⟨e1, subject, e2⟩ := hgen _ _ hp
      have e3 := hnc.payloads _ _ k1 e2 e1.symm
      dsimp only at e3
      refine ⟨m, hm, ?_⟩
      rw [← hnc.subjects q k1 m hm k2, ← e3]
      exact k1
    · rintro ⟨n, k1, k2⟩
      have hio := (ho' (H p)).2 ⟨n, k1, (n, p), k2, rfl, rfl⟩
      obtain ⟨q, hq⟩ := hst _ hio
      obtain ⟨e1, subject, e2⟩ := hgen _ _ hq
      refine ⟨_, hio, ?_⟩
      have e3 := hnc.payloads _ _ e2 k2 e1
      dsimp only at e3
      rw [e3] at hq
      exact hq

/-! ## Between pruning and the end of the next update -/

/-- Both certificates are in the tables and in the tree that is served. -/
def exServed : List Op := [.certs [exCert 7 "a.com" 90, exCert 8 "h.com" 40] [[], []] 4, .coalesce 12, .coalesce 13, .finish, .reload]

theorem served_hist : ∃ t, SafeHist exH exServed ⟨exTables 90 40 exPayloads [], t, t⟩ := by
  let db2 : DB := exTables 90 40 [] [(exH (asc "a.com"), false), (exH (asc "h.com"), false)]
  let db3 : DB := exTables 90 40 [⟨exH (asc "a.com"), some (exH [7]), none⟩] [(exH (asc "a.com"), true), (exH (asc "h.com"), false)]
  let db4 : DB := exTables 90 40 exPayloads [(exH (asc "a.com"), true), (exH (asc "h.com"), true)]
  let db5 : DB := exTables 90 40 exPayloads []
  have hst2 : Step exH start (.certs [exCert 7 "a.com" 90, exCert 8 "h.com" 40] [[], []] 4) ⟨db2, .empty, .empty⟩ := step_certs rfl (by decide +kernel)
  have hst3 : Step exH ⟨db2, .empty, .empty⟩ (.coalesce 12) ⟨db3, .empty, .empty⟩ := .coalesce 12 5 10 1 db3 (by decide +kernel) (by decide +kernel) (by omega) (by decide +kernel)
  have hst4 : Step exH ⟨db3, .empty, .empty⟩ (.coalesce 13) ⟨db4, .empty, .empty⟩ := .coalesce 13 5 10 1 db4 (by decide +kernel) (by decide +kernel) (by omega) (by decide +kernel)
  have hw : ∀ d, (d, false) ∉ db4.dirty := fun d hd => by
    rcases mem_two hd with h | h <;> cases h
  have r4 := ((Run.nil.more hst2).more hst3).more hst4
  obtain ⟨⟨o, ho⟩, hsome⟩ := C91_no_panic_partial exH exH_length _ _ r4 (by simp [Op.NoPrune]) (by simp [Op.Complete]) hw 1 (by omega)
  obtain ⟨t, rfl⟩ := hsome o ho
  have hst5 : Step exH ⟨db4, .empty, .empty⟩ .finish ⟨db5, t, .empty⟩ := .finish 1 t (by omega) hw ho
  have r6 : Run exH exServed ⟨db5, t, t⟩ := (r4.more hst5).more .reload
  exact ⟨t, (noPrune_safe exH_length r6 (by simp [exServed, Op.NoPrune])).1⟩

/-- **C134 violated** (between a pruning and the end of the update that follows it): the answers still show the certificates that were removed, with proofs that verify, but their payloads are gone:
the client gets null for them, with status 200. -/
theorem C134_dangling_violated : ∃ s as, ∃ a ∈ as, Run exH (exServed ++ [.prune 50]) s ∧ GetProof exH exPsl s.served (tableOf s.db) (asc "h.com") (some as) ∧ a.domainName = asc "h.com" ∧
    a.proofType = PoP ∧ verifyProofByDomain exH a = some (PoP, true) ∧ bytesToIDs a.certIDs = [exH [8]] ∧
    ∀ query, Delivers s.db .certificates query → fetchAll query [exH [8]] = some [none] := by
  obtain ⟨t, hsafe⟩ := served_hist
  let db5 : DB := exTables 90 40 exPayloads []
  let db6 : DB := { db5 with certs := [⟨exH [7], [], 90, [7]⟩], dirty := [(exH (asc "h.com"), false)] }
  have p6 : pruneCerts 5 db5 50 = some db6 := by decide +kernel
  have hst6 : Step exH ⟨db5, t, t⟩ (.prune 50) ⟨db6, t, t⟩ := .prune 50 5 db6 p6
  obtain ⟨out, hg⟩ := getProof_total exH exPsl t (tableOf db5) (asc "h.com")
  obtain ⟨h1, h2⟩ := C91_answers_partial exH exH_length exPsl _ _ hsafe rfl _ _ hg
  rw [show parseDomainName exPsl (asc "h.com") = some [asc "h.com"] by decide +kernel] at h1
  cases out with
  | none => cases h1
  | some as =>
    obtain ⟨a, rfl, hname⟩ : ∃ a, as = [a] ∧ a.domainName = asc "h.com" := by
      simp only [Option.map_some, Option.some.injEq] at h1
      cases as with
      | nil => cases h1
      | cons a r =>
        cases r with
        | nil => exact ⟨a, rfl, by simpa using h1⟩
        | cons b r => simp at h1
    obtain ⟨_, _, g3, cs, ps, g4, _, g6, _, g8, g9⟩ := h2 _ rfl a List.mem_cons_self (by simp [IsDirty, exTables])
    rw [hname] at g6
    have hcs : ∀ i, i ∈ cs ↔ i = exH [8] := by
      intro i
      rw [g6]
      constructor
      · rintro ⟨c, hc, rfl⟩
        suffices h : c = ⟨exH [8], [], 40, [8]⟩ by rw [h]
        induction hc with
        | link c hc hl =>
          rcases mem_two hc with rfl | rfl
          · exact absurd (show (exH (asc "h.com"), exH [7]) ∈ [(exH (asc "a.com"), exH [7]), (exH (asc "h.com"), exH [8])] from hl) (by decide +kernel)
          · rfl
        | parent c p hc hp he ih =>
          subst ih
          rcases mem_two hp with rfl | rfl
          · exact absurd (show exH [7] = [] from he) (by decide +kernel)
          · rfl
      · rintro rfl
        exact ⟨⟨exH [8], [], 40, [8]⟩, .link _ (by simp [exTables]) (by simp [exTables]), rfl⟩
    have hcs : cs = [exH [8]] := ascending_ext g4 (List.pairwise_singleton _ _) (fun i => by rw [hcs, List.mem_singleton])
    have hpop := g8.2 (by simp [hcs])
    rw [hpop] at g3
    obtain ⟨k1, _, _⟩ := g9 hpop
    refine ⟨⟨db6, t, t⟩, [a], a, List.mem_cons_self, hsafe.run.more hst6, hg, hname, hpop, g3, ?_, ?_⟩
    · have := C14_ids_roundtrip [exH [8]] (by simp [exH_length])
      unfold idsToBytes at this
      rw [k1, hcs, this]
    · intro query hq
      have hnil : query [exH [8]] = [] := by
        have h3 := hq [exH [8]]
        have h4 : PayloadApi.selected db6 .certificates [exH [8]] = [] := by decide +kernel
        rw [h4] at h3
        exact h3.eq_nil
      have h5 := PayloadApi.C78_request_roundtrip [exH [8]] (by simp [exH_length])
      have hne : ([exH [8]] : List Bytes) ≠ [] := by simp
      have h6 : PayloadApi.apiGetPayloads query ([exH [8]].flatMap PayloadApi.hexEncode) = .ok (PayloadApi.jsonBody [none]) := by
        unfold PayloadApi.apiGetPayloads
        rw [h5]
        dsimp only
        rw [PayloadApi.retrieve_eq hne, hnil]
        rfl
      unfold fetchAll
      rw [if_neg (by simp), h6]
      dsimp only
      rw [PayloadApi.C78_body_roundtrip]
      rfl

/-! ## The hypotheses can be met -/

/-- A valid name is answered. -/
theorem serves_total (H : Bytes → Bytes) (hH : ∀ x, (H x).length = 32) (psl : Psl) (t : Node) (table : Bytes → Responder.Row) (sth : Option Bytes) (name : Bytes) (parts : List Bytes)
    (hp : parseDomainName psl name = some parts) : ∃ as, Serves H psl t table sth name (some as) := by
  obtain ⟨out, hout⟩ := getProof_total H psl t table name
  have hg := hout
  unfold GetProof at hout
  rw [hp] at hout
  obtain ⟨rs, h1, rfl⟩ := hout
  let conv : Responder.Response → Answer := fun r =>
    ⟨some ⟨r.domainName, r.domainID, r.domainValue, List.replicate 32 0, some r.certIDs, List.replicate 32 0, some r.policyIDs⟩, r.proofType, some (r.proof.map some), r.root, some r.proofKey, some r.proofValue, sth⟩
  have hr : ∀ r ∈ rs, r.domainID.length = 32 ∧ r.domainValue.length = 32 ∧ r.proofType ≤ 1 := by
    intro r hr
    obtain ⟨part, _, ha⟩ := forall2_mem h1 hr
    unfold AnswerFor at ha
    dsimp only at ha
    split at ha
    · obtain ⟨v, _, rfl⟩ := ha
      exact ⟨hH _, hH _, Nat.le_refl 1⟩
    · subst ha
      exact ⟨hH _, by simp, Nat.zero_le 1⟩
  refine ⟨rs.map conv, rs, hg, ?_, ?_⟩
  · clear h1 hg hr
    induction rs with
    | nil => exact .nil
    | cons r rs ih =>
      refine .cons ⟨⟨_, rfl, rfl, rfl, rfl, rfl, rfl⟩, rfl, ?_, rfl, rfl, rfl⟩ ih
      show (((some (r.proof.map some)).getD []).map (·.getD [])) = r.proof
      simp [Function.comp_def]
  · intro a ha
    obtain ⟨r, hrr, rfl⟩ := List.mem_map.1 ha
    obtain ⟨g1, g2, g3⟩ := hr r hrr
    refine ⟨⟨?_, ?_⟩, rfl⟩
    · show -(2 ^ 63) ≤ (r.proofType : Int) ∧ (r.proofType : Int) < 2 ^ 63
      omega
    · intro e he
      cases he
      exact ⟨g1, g2, by simp, by simp⟩

/-- The history of the example, up to the last update. -/
def exBefore : List Op := [.certs [exCert 7 "a.com" 90, exCert 8 "h.com" 40] [[], []] 4, .coalesce 12, .coalesce 13]

example : (∃ s as, Run exH (exBefore ++ [.finish, .reload]) s ∧ Serves exH exPsl s.served (tableOf s.db) none (asc "h.com") (some as) ∧ SafeHist exH (exBefore ++ [.finish, .reload]) s ∧ s.served = s.tree) ∧
    (∀ op ∈ exBefore, op.NoPrune) ∧ (∀ op ∈ exBefore, op.Complete) ∧ Consistent exH exBefore ∧ parseDomainName exPsl (asc "h.com") = some [asc "h.com"] ∧ NoCollision exH exBefore [asc "h.com"] ∧
    CertFor exBefore [asc "h.com"] [8] ∧ ¬ CertFor exBefore [asc "h.com"] [7] := by
  have hsub : ∀ l c, Submitted exBefore l c ↔ (l = exCert 7 "a.com" 90 ∨ l = exCert 8 "h.com" 40) ∧ c = [] := by
    intro l c
    constructor
    · rintro ⟨ls, cs, k, h1, h2⟩
      simp only [exBefore, List.mem_cons, List.not_mem_nil, or_false, Op.certs.injEq, reduceCtorEq] at h1
      obtain ⟨rfl, rfl, rfl⟩ := h1
      simp only [List.zip_cons_cons, List.zip_nil_right, List.mem_cons, List.not_mem_nil, or_false, Prod.mk.injEq] at h2
      rcases h2 with ⟨rfl, rfl⟩ | ⟨rfl, rfl⟩ <;> simp
    · rintro ⟨h, rfl⟩
      refine ⟨_, _, _, List.mem_cons_self, ?_⟩
      rcases h with rfl | rfl <;> simp
  have hpol : ∀ p, ¬ PolSubmitted exBefore p := by
    rintro p ⟨_, _, _, h, _⟩
    simp [exBefore] at h
  obtain ⟨c1, _⟩ := two_consistent (ops := exBefore) (fun l c h => (hsub l c).1 h) hpol (show exH [7] ≠ exH [8] by decide +kernel)
  have hp : parseDomainName exPsl (asc "h.com") = some [asc "h.com"] := by decide +kernel
  obtain ⟨t, hs⟩ := served_hist
  obtain ⟨as, has⟩ := serves_total exH exH_length exPsl t (tableOf (exTables 90 40 exPayloads [])) none (asc "h.com") _ hp
  have e78 : exH [7] ≠ exH [8] := by decide +kernel
  have eah : exH (asc "a.com") ≠ exH (asc "h.com") := by decide +kernel
  refine ⟨⟨_, as, hs.run, has, hs, rfl⟩, by simp [exBefore, Op.NoPrune], by simp [exBefore, Op.Complete], c1, hp, ⟨?_, fun p _ h => absurd h (hpol p), ?_, fun p h => absurd h (hpol p)⟩, ?_, ?_⟩
  · intro l c l' c' h h' x hx x' hx' he
    obtain ⟨h1, rfl⟩ := (hsub l c).1 h
    obtain ⟨h2, rfl⟩ := (hsub l' c').1 h'
    rw [List.mem_singleton] at hx hx'
    subst hx hx'
    rcases h1 with rfl | rfl <;> rcases h2 with rfl | rfl
    · rfl
    · exact absurd he e78
    · exact absurd he.symm e78
    · rfl
  · intro l c h n hn m hm he
    obtain ⟨h1, rfl⟩ := (hsub l c).1 h
    rw [List.mem_singleton] at hm
    subst hm
    rcases h1 with rfl | rfl
    · rw [show n = asc "a.com" from List.mem_singleton.1 hn] at he
      exact absurd he eah
    · exact List.mem_singleton.1 hn
  · exact ⟨_, _, (hsub _ _).2 ⟨.inr rfl, rfl⟩, ⟨_, List.mem_singleton.2 rfl, List.mem_singleton.2 rfl⟩, _, List.mem_singleton.2 rfl, rfl⟩
  · rintro ⟨l, c, h, ⟨n, h1, h2⟩, x, h3, h4⟩
    obtain ⟨h5, rfl⟩ := (hsub l c).1 h
    rw [List.mem_singleton] at h3
    subst h3
    rcases h5 with rfl | rfl
    · rw [List.mem_singleton] at h2
      have h1 := List.mem_singleton.1 h1
      rw [h2] at h1
      exact absurd h1 (by decide +kernel)
    · cases h4

end Fpki.E2E
