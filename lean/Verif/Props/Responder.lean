import Verif.Model.Responder
import Verif.Props.Smt
import Verif.Props.Ids
import Verif.Props.Domain
import Verif.Props.Dirty

/-!
# C12: what an accepted answer of the map server means; C13: the answers of `GetProof`
-/
namespace Fpki.Responder
open Fpki.Smt Fpki.Ids Fpki.Domain

/-! ## C12 -/

/-- The proof has the sizes of a real one. -/
def Response.Sized (r : Response) : Prop :=
  (∀ s ∈ r.proof, s.length = 32 ∨ s = defaultLeaf) ∧ r.domainID.length = 32 ∧ r.domainValue.length = 32

/-- C12 (partial: proof nodes of the right sizes, which the code does not check): if a presence answer is accepted against the root of a tree, the tree holds the returned value for the returned
domain ID, unless the hash function collides (or has overlapping digests) on the strings hashed by the tree and the verifier. -/
theorem C12_presence_partial (H : Bytes → Bytes) (hH : ∀ x, (H x).length = 32) (hist : List KVs) (hs : SizedHist hist) (r : Response) (hsz : r.Sized)
    (hroot : r.root = rootHash H 256 (run 256 hist)) (hne : r.root ≠ none) (hacc : verifyProofByDomain H r = some (PoP, true)) :
    get 0 (run 256 hist) r.domainID = some r.domainValue ∨
    Clash H (preimages H 256 (run 256 hist)) (inclusionPreimages H 256 r.proof r.domainID r.domainValue) ∨
    Shift H (preimages H 256 (run 256 hist)) (inclusionPreimages H 256 r.proof r.domainID r.domainValue) := by
  obtain ⟨root, hr⟩ := Option.ne_none_iff_exists'.1 hne
  unfold verifyProofByDomain at hacc
  split at hacc
  · split at hacc
    · cases hacc
    · rw [hr] at hacc
      simp only [Option.getD_some, Option.some.injEq, Prod.mk.injEq, true_and] at hacc
      exact C06_inclusion_sound_partial H hH hist hs root (by rw [← hroot, hr]) r.proof r.domainID r.domainValue hsz.1 hsz.2.1 hsz.2.2 hacc
  · simp [PoA, PoP] at hacc

/-- C12: an accepted presence answer is never one for the empty tree. -/
theorem C12_presence_needs_root (H : Bytes → Bytes) (hH : ∀ x, (H x).length = 32) (r : Response) (hacc : verifyProofByDomain H r = some (PoP, true)) : r.root ≠ none := by
  intro hn
  unfold verifyProofByDomain at hacc
  split at hacc
  · split at hacc
    · cases hacc
    · rw [hn] at hacc
      simp only [Option.getD_none, Option.some.injEq, Prod.mk.injEq, true_and, verifyInclusion, beq_iff_eq] at hacc
      have hl : ([] : Bytes).length = 32 := by
        rw [hacc]
        cases r.proof.reverse with
        | nil => simp only [verifyPath]; exact hH _
        | cons s l => simp only [verifyPath]; split <;> exact hH _
      simp at hl
  · simp [PoA, PoP] at hacc

/-- The tree holds, for the domains of the table, the hash of their glued IDs, and nothing for domains without IDs. This is the result of UpdateSMT (C69) when the payloads did not change since. -/
def InSync (H : Bytes → Bytes) (t : Node) (table : Bytes → Row) : Prop :=
  ∀ id, id.length = 32 → if (table id).ids = [] then get 0 t id = none else ∃ v, SortIDsAndGlue (table id).ids v ∧ get 0 t id = some (H v)

/-- What a client has to check in addition: the ID is the one of the name it asked for, and the value is the hash of the IDs it got. `VerifyProofByDomain` checks neither. -/
def ClientChecks (H : Bytes → Bytes) (name : Bytes) (r : Response) : Prop :=
  r.domainID = H name ∧ ∃ v, SortIDsAndGlue (Row.ids ⟨r.certIDs, r.policyIDs⟩) v ∧ r.domainValue = H v

/-- C12 (partial: if the client also checks the ID and the value, which `VerifyProofByDomain` does not): the returned IDs are, together, exactly the certificate and policy IDs in the map
server's table for that name, barring collisions. -/
theorem C12_ids_partial (H : Bytes → Bytes) (hH : ∀ x, (H x).length = 32) (hist : List KVs) (hs : SizedHist hist) (table : Bytes → Row) (hsync : InSync H (run 256 hist) table)
    (htab : ∀ id, (table id).certIDs.length % 32 = 0 ∧ (table id).policyIDs.length % 32 = 0) (name : Bytes) (r : Response) (hsz : r.Sized)
    (hsz' : r.certIDs.length % 32 = 0 ∧ r.policyIDs.length % 32 = 0)
    (hroot : r.root = rootHash H 256 (run 256 hist)) (hacc : verifyProofByDomain H r = some (PoP, true)) (hc : ClientChecks H name r) :
    (Row.ids ⟨r.certIDs, r.policyIDs⟩).Perm (table (H name)).ids ∨
    (∃ x y, SortIDsAndGlue (Row.ids ⟨r.certIDs, r.policyIDs⟩) x ∧ SortIDsAndGlue (table (H name)).ids y ∧ x ≠ y ∧ H x = H y) ∨
    Clash H (preimages H 256 (run 256 hist)) (inclusionPreimages H 256 r.proof r.domainID r.domainValue) ∨
    Shift H (preimages H 256 (run 256 hist)) (inclusionPreimages H 256 r.proof r.domainID r.domainValue) := by
  obtain ⟨hid, v, hv, hval⟩ := hc
  rcases C12_presence_partial H hH hist hs r hsz hroot (C12_presence_needs_root H hH r hacc) hacc with h | h | h
  · have hy := hsync (H name) (hH _)
    rw [hid] at h
    split at hy
    · rw [hy] at h; cases h
    · obtain ⟨w, hw, hget⟩ := hy
      rw [hget, hval] at h
      have hHw : H w = H v := Option.some.inj h
      by_cases e : v = w
      · left
        refine (C14_glue_eq_iff_perm _ _ v w ?_ ?_ hv hw).1 e
        · intro x hx
          rcases List.mem_append.1 hx with hx | hx
          · exact (C14_bytes_roundtrip _ hsz'.1).2 x hx
          · exact (C14_bytes_roundtrip _ hsz'.2).2 x hx
        · intro x hx
          rcases List.mem_append.1 hx with hx | hx
          · exact (C14_bytes_roundtrip _ (htab _).1).2 x hx
          · exact (C14_bytes_roundtrip _ (htab _).2).2 x hx
      · right; left; exact ⟨v, w, hv, hw, e, hHw.symm⟩
  · right; right; left; exact h
  · right; right; right; exact h

/-- C12 is violated without these checks: whatever name, certificate IDs and policy IDs are put into an answer, it verifies like the original. -/
theorem C12_ids_violated (H : Bytes → Bytes) (r : Response) (name certs policies : Bytes) :
    verifyProofByDomain H { r with domainName := name, certIDs := certs, policyIDs := policies } = verifyProofByDomain H r := rfl

/-- C12 for absence (partial: real sizes, and a proof key different from the domain ID, which the code does not check): an accepted absence answer means that the tree holds nothing for the
domain ID, barring collisions, overlapping digests and zero bytes at their edges. -/
theorem C12_absence_partial (H : Bytes → Bytes) (hH : ∀ x, (H x).length = 32) (hist : List KVs) (hs : SizedHist hist) (r : Response)
    (hap : ∀ s ∈ r.proof, s.length = 32 ∨ s = defaultLeaf) (hpk : r.proofKey = [] ∨ (r.proofKey.length = 32 ∧ r.proofValue.length = 32 ∧ r.proofKey ≠ r.domainID))
    (hroot : r.root = rootHash H 256 (run 256 hist)) (hacc : verifyProofByDomain H r = some (PoA, true)) :
    get 0 (run 256 hist) r.domainID = none ∨
    Clash H (preimages H 256 (run 256 hist)) (nonInclusionPreimages H 256 r.proof r.domainID r.proofValue r.proofKey) ∨
    Shift H (preimages H 256 (run 256 hist)) (nonInclusionPreimages H 256 r.proof r.domainID r.proofValue r.proofKey) ∨
    (r.proofKey = [] ∧ ZeroEdge H (preimages H 256 (run 256 hist))) := by
  unfold verifyProofByDomain at hacc
  split at hacc
  · split at hacc
    · cases hacc
    · simp [PoA, PoP] at hacc
  · simp only [Option.some.injEq, Prod.mk.injEq, true_and] at hacc
    rw [hroot] at hacc
    exact C07_non_inclusion_sound_partial H hH hist hs r.proof r.domainID r.proofValue r.proofKey hap hpk hacc

/-- C12 for absence is violated otherwise: the presence proof of a domain, sent as an absence answer that names the domain itself as the proof key, is accepted: the server can deny the existence
of every domain in its tree. -/
theorem C12_denial_violated (H : Bytes → Bytes) (r : Response) (hp : verifyProofByDomain H r = some (PoP, true)) (hne : r.domainID ≠ []) :
    verifyProofByDomain H { r with proofType := PoA, proofKey := r.domainID } = some (PoA, true) := by
  unfold verifyProofByDomain at hp
  split at hp
  · split at hp
    · cases hp
    · rename_i h1 h2
      simp only [ne_eq, Decidable.not_not] at h2
      simp only [Option.some.injEq, Prod.mk.injEq, true_and] at hp
      simp only [verifyProofByDomain, PoA, PoP, Nat.zero_ne_one, if_false, Option.some.injEq, Prod.mk.injEq, true_and, verifyNonInclusion]
      cases hr : r.root with
      | none => rfl
      | some root =>
        have hne' : r.domainID.isEmpty = false := by
          cases hd : r.domainID with
          | nil => exact absurd hd hne
          | cons _ _ => rfl
        rw [hr] at hp
        simp only [Option.getD_some] at hp
        simp only [hne', ← h2, hp, sameBits]
        simp
  · simp [PoA, PoP] at hp

/-! ## C13 -/

/-- The tree holds for one domain what the table says. -/
def SyncAt (H : Bytes → Bytes) (t : Node) (table : Bytes → Row) (id : Bytes) : Prop :=
  if (table id).ids = [] then get 0 t id = none else ∃ v, SortIDsAndGlue (table id).ids v ∧ get 0 t id = some (H v)

/-- The answer for one name, if tree and table agree on it. -/
theorem answer_key (H : Bytes → Bytes) (hH : ∀ x, (H x).length = 32) (hist : List KVs) (hgood : GoodHist 256 hist) (table : Bytes → Row) (part : Bytes) (a : Response)
    (hy : SyncAt H (run 256 hist) table (H part)) (ha : AnswerFor H (run 256 hist) table part a) : a.domainName = part ∧
    (a.domainID = H a.domainName ∧ a.root = rootHash H 256 (run 256 hist) ∧
    (a.proofType = PoP ↔ (table (H a.domainName)).ids ≠ []) ∧
    (a.proofType = PoP → a.certIDs = (table (H a.domainName)).certIDs ∧ a.policyIDs = (table (H a.domainName)).policyIDs ∧ ClientChecks H a.domainName a) ∧
    verifyProofByDomain H a = some (a.proofType, true)) := by
  unfold SyncAt at hy
  unfold AnswerFor at ha
  cases hg : get 0 (run 256 hist) (H part) with
  | none =>
    have hc := non_inclusion_complete_good H 256 hist hgood (H part) (by rw [hH]) (by omega) hg
    simp only at hc ha
    rw [if_neg (by rw [hc.1]; simp)] at ha
    have hids : (table (H part)).ids = [] := by
      by_cases hi : (table (H part)).ids = []
      · exact hi
      · rw [if_neg hi] at hy
        obtain ⟨v, _, h⟩ := hy
        rw [hg] at h; cases h
    subst ha
    refine ⟨rfl, rfl, rfl, ?_, ?_, ?_⟩
    · simp [PoA, PoP, hids]
    · intro h; simp [PoA, PoP] at h
    · unfold verifyProofByDomain
      rw [if_neg (by simp [PoA, PoP])]
      simp only
      rw [hc.2]
  | some v =>
    cases hr : rootHash H 256 (run 256 hist) with
    | none =>
      unfold rootHash at hr
      cases hrun : run 256 hist with
      | empty => rw [hrun] at hg; simp [Smt.get] at hg
      | leaf k w => rw [hrun] at hr; simp at hr
      | node l r => rw [hrun] at hr; simp at hr
    | some root =>
      have hc := C04_inclusion_complete H 256 hist (H part) v hg root hr
      simp only at ha
      rw [if_pos hc.1] at ha
      obtain ⟨w, hw, rfl⟩ := ha
      have hids : (table (H part)).ids ≠ [] := by
        intro hi
        rw [if_pos hi] at hy
        rw [hg] at hy; cases hy
      rw [if_neg hids] at hy
      obtain ⟨v', hv', hg'⟩ := hy
      have hvw : v' = w := by
        obtain ⟨s, hs, rfl⟩ := hv'
        obtain ⟨s', hs', rfl⟩ := hw
        rw [goSorted_unique (hs.perm.trans hs'.perm.symm) hs.sorted hs'.sorted]
      subst hvw
      have hval : v = H v' := by rw [hg] at hg'; exact Option.some.inj hg'
      refine ⟨rfl, rfl, hr, ?_, fun _ => ⟨rfl, rfl, rfl, v', hw, rfl⟩, ?_⟩
      · simp [hids]
      · unfold verifyProofByDomain
        simp only [if_true, hc.2.1, Option.getD_some, hval, ne_eq, not_true, if_false, hr]
        rw [← hval, hc.2.2]

/-- C13 (partial: the tree is in sync with the table, see `C13_stale_violated`; histories without deletions in the middle of a batch, as in `C01_one_update_partial`, see C05): for a valid name, `GetProof` returns one answer per name from the e2LD to the full
name, in that order (the names of C52); each has that name's ID, says "present" exactly if the table has IDs for it, and then returns these IDs; each is accepted by `VerifyProofByDomain`. -/
theorem C13_answers_partial (H : Bytes → Bytes) (hH : ∀ x, (H x).length = 32) (psl : Psl) (hist : List KVs) (hgood : GoodHist 256 hist)
    (table : Bytes → Row) (hsync : InSync H (run 256 hist) table) (name : Bytes) (out : Option (List Response)) (h : GetProof H psl (run 256 hist) table name out) :
    out.map (List.map Response.domainName) = parseDomainName psl name ∧
    ∀ as, out = some as → ∀ a ∈ as,
      a.domainID = H a.domainName ∧ a.root = rootHash H 256 (run 256 hist) ∧
      (a.proofType = PoP ↔ (table (H a.domainName)).ids ≠ []) ∧
      (a.proofType = PoP → a.certIDs = (table (H a.domainName)).certIDs ∧ a.policyIDs = (table (H a.domainName)).policyIDs ∧ ClientChecks H a.domainName a) ∧
      verifyProofByDomain H a = some (a.proofType, true) := by
  unfold GetProof at h
  cases hp : parseDomainName psl name with
  | none => rw [hp] at h; subst h; exact ⟨rfl, fun as h => by cases h⟩
  | some parts =>
    rw [hp] at h
    obtain ⟨as, h1, rfl⟩ := h
    clear hp
    have key := fun part a (ha : AnswerFor H (run 256 hist) table part a) => answer_key H hH hist hgood table part a (hsync (H part) (hH _)) ha
    constructor
    · simp only [Option.map_some]
      congr 1
      clear hsync
      induction h1 with
      | nil => rfl
      | cons ha _ ih => simp only [List.map_cons, ih, (key _ _ ha).1]
    · intro as' has a ha
      cases has
      clear hsync
      induction h1 with
      | nil => cases ha
      | cons hx _ ih =>
        rcases List.mem_cons.1 ha with rfl | ha
        · exact (key _ _ hx).2
        · exact ih ha

/-- `GetProof` always has an outcome. -/
theorem getProof_total (H : Bytes → Bytes) (psl : Psl) (t : Node) (table : Bytes → Row) (name : Bytes) : ∃ out, GetProof H psl t table name out := by
  unfold GetProof
  cases parseDomainName psl name with
  | none => exact ⟨none, rfl⟩
  | some parts =>
    have : ∀ part, ∃ a, AnswerFor H t table part a := by
      intro part
      unfold AnswerFor
      simp only
      split
      · obtain ⟨v, hv⟩ := C14_glue_total (table (H part)).ids
        exact ⟨_, v, hv, rfl⟩
      · exact ⟨_, rfl⟩
    induction parts with
    | nil => exact ⟨_, [], .nil, rfl⟩
    | cons p ps ih =>
      obtain ⟨_, as, h, _⟩ := ih
      obtain ⟨a, ha⟩ := this p
      exact ⟨_, a :: as, .cons ha h, rfl⟩

/-- C13 is violated while the table is ahead of the responder's tree (between the coalescing of the payloads and the reload of the tree): a domain whose value in the tree is not the hash of
the IDs now in the table gets a presence answer that every client refuses with an error. -/
theorem C13_stale_violated (H : Bytes → Bytes) (hist : List KVs) (table : Bytes → Row) (part : Bytes) (v : Bytes) (a : Response)
    (hg : get 0 (run 256 hist) (H part) = some v) (hstale : ∀ w, SortIDsAndGlue (table (H part)).ids w → H w ≠ v) (h : AnswerFor H (run 256 hist) table part a) :
    a.proofType = PoP ∧ verifyProofByDomain H a = none := by
  have hr : ∃ root, rootHash H 256 (run 256 hist) = some root := by
    unfold rootHash
    cases hrun : run 256 hist with
    | empty => rw [hrun] at hg; simp [Smt.get] at hg
    | leaf k w => exact ⟨_, rfl⟩
    | node l r => exact ⟨_, rfl⟩
  obtain ⟨root, hr⟩ := hr
  have hc := C04_inclusion_complete H 256 hist (H part) v hg root hr
  unfold AnswerFor at h
  simp only at h
  rw [if_pos hc.1] at h
  obtain ⟨w, hw, rfl⟩ := h
  refine ⟨rfl, ?_⟩
  unfold verifyProofByDomain
  rw [if_pos rfl]
  simp only [hc.2.1, Option.getD_some]
  rw [if_pos (hstale w hw)]

/-- The payload column of the query for the dirty domains (mysql.go:518-531) belongs to the table. -/
def PayloadsOf (table : Bytes → Row) (payloads : Bytes → Option Bytes) : Prop :=
  ∀ id, ∃ v, SortIDsAndGlue (table id).ids v ∧ payloads id = some v

theorem row_ids_length {r : Row} {x : Bytes} (hx : x ∈ r.ids) : x.length = 32 := by
  have : ∀ b : Bytes, ∀ x ∈ bytesToIDs b, x.length = 32 := by
    intro b
    fun_induction bytesToIDs b with
    | case1 b hb ih =>
      intro x hx
      rcases List.mem_cons.1 hx with rfl | hx
      · simp; omega
      · exact ih x hx
    | case2 b hb => intro x hx; cases hx
  rcases List.mem_append.1 hx with hx | hx
  · exact this _ x hx
  · exact this _ x hx

/-- C13: UpdateSMT brings the tree in sync with the table again. If the tree was in sync with the old table, every domain whose row changed is dirty, and no dirty domain lost all its IDs
(the restriction of C69), then after UpdateSMT, with any bundle sizes, the tree is in sync with the new table, so that the responder's answers verify once it has reloaded the tree. -/
theorem C13_synced_by_update_partial (H : Bytes → Bytes) (hH : ∀ x, (H x).length = 32) (psl : Psl) (hist : List KVs) (hgood : GoodHist 256 hist) (old new : Bytes → Row)
    (hsync : InSync H (run 256 hist) old) (dirty : List (List Bytes)) (hnd : dirty.flatten.Nodup) (hlen : ∀ id ∈ dirty.flatten, id.length = 32)
    (hchanged : ∀ id, id ∉ dirty.flatten → new id = old id) (hnonempty : ∀ id ∈ dirty.flatten, (new id).ids ≠ []) (payloads : Bytes → Option Bytes) (hp : PayloadsOf new payloads)
    (t' : Node) (hrun : Dirty.SmtFromBundles H 256 (run 256 hist) (dirty.map (Dirty.entriesPreserveMissing payloads)) t') :
    InSync H t' new ∧ ∀ name out, GetProof H psl t' new name out → ∀ as, out = some as → ∀ a ∈ as, verifyProofByDomain H a = some (a.proofType, true) := by
  have hpay : ∀ id ∈ dirty.flatten, ∃ p, payloads id = some p ∧ p ≠ [] := by
    intro id hid
    obtain ⟨v, ⟨s, hs, rfl⟩, hv⟩ := hp id
    refine ⟨_, hv, ?_⟩
    obtain ⟨x, hx⟩ := List.exists_mem_of_ne_nil _ (hnonempty id hid)
    intro h
    have h1 := List.flatten_eq_nil_iff.1 h x (hs.perm.mem_iff.2 hx)
    have h2 := row_ids_length hx
    rw [h1] at h2; simp at h2
  obtain ⟨hist', rfl, g', hm⟩ := Dirty.bundles_good hrun dirty hist rfl rfl hgood hnd (fun id h => by have := hlen id h; omega) hpay
  have hs' : InSync H (run 256 hist') new := by
    intro id hid
    rw [g'.spec.2 id (by omega), hm id]
    unfold Dirty.expected
    by_cases hd : id ∈ dirty.flatten
    · rw [if_pos hd, if_neg (hnonempty id hd)]
      obtain ⟨v, h1, h2⟩ := hp id
      obtain ⟨p, h3, h4⟩ := hpay id hd
      rw [h2] at h3
      cases h3
      refine ⟨v, h1, ?_⟩
      rw [h2]
      simp only [h4, if_false]
    · rw [if_neg hd, ← hgood.spec.2 id (by omega), hchanged id hd]
      exact hsync id hid
  refine ⟨hs', ?_⟩
  intro name out hg as has a ha
  exact ((C13_answers_partial H hH psl hist' g' new hs' name out hg).2 as has a ha).2.2.2.2

/-! ## A concrete case -/

/-- A toy hash: the first 32 bytes, padded. -/
def exH : Bytes → Bytes := fun x => x.take 32 ++ List.replicate (32 - x.length) 0

theorem exH_length (x : Bytes) : (exH x).length = 32 := by simp [exH]; omega

/-- The table has one certificate for `a.com` and nothing else. -/
def exTable : Bytes → Row := fun id => if id = exH (asc "a.com") then ⟨b32 7, []⟩ else ⟨[], []⟩

/-- The tree after UpdateSMT. -/
def exTree : List KVs := [[(exH (asc "a.com"), some (b32 7))]]

theorem exIds : Row.ids ⟨b32 7, []⟩ = [b32 7] := by
  have h1 : bytesToIDs (b32 7) = [b32 7] := by
    have := C14_ids_roundtrip [b32 7] (by decide)
    simpa [idsToBytes] using this
  have h2 : bytesToIDs [] = [] := by rw [bytesToIDs]; simp
  simp [Row.ids, h1, h2]

theorem exNoIds : Row.ids ⟨[], []⟩ = [] := by
  have h2 : bytesToIDs [] = [] := by rw [bytesToIDs]; simp
  simp [Row.ids, h2]

/-- The hypotheses of C13 hold of it. -/
theorem exSync : ValidHist 256 exTree ∧ EdgeHist exTree ∧ SizedHist exTree ∧ InSync exH (run 256 exTree) exTable := by
  refine ⟨by decide +kernel, by decide +kernel, by decide +kernel, ?_⟩
  have hrun : run 256 exTree = .leaf (exH (asc "a.com")) (b32 7) := by decide +kernel
  intro id _
  rw [hrun]
  unfold exTable
  by_cases h : id = exH (asc "a.com")
  · simp only [h, if_true, exIds]
    rw [if_neg (by simp)]
    exact ⟨b32 7, ⟨[b32 7], ⟨List.Perm.refl _, by simp⟩, by simp [idsToBytes]⟩, by decide⟩
  · simp only [h, if_false, exNoIds, if_true, Smt.get]
    rw [if_neg (fun e => h e.symm)]

/-- `GetProof("x.a.com")` has two answers: `a.com` is present, `x.a.com` is absent; both verify. -/
example : ∃ a b, GetProof exH exPsl (run 256 exTree) exTable (asc "x.a.com") (some [a, b]) ∧ a.domainName = asc "a.com" ∧ b.domainName = asc "x.a.com" ∧ a.proofType = PoP ∧ b.proofType = PoA ∧
    verifyProofByDomain exH a = some (PoP, true) ∧ verifyProofByDomain exH b = some (PoA, true) ∧ a.Sized := by
  obtain ⟨out, hout⟩ := getProof_total exH exPsl (run 256 exTree) exTable (asc "x.a.com")
  have h := C13_answers_partial exH exH_length exPsl exTree (goodHist_of_edge exSync.1 exSync.2.1) exTable exSync.2.2.2 _ _ hout
  have hp : parseDomainName exPsl (asc "x.a.com") = some [asc "a.com", asc "x.a.com"] := by decide +kernel
  rw [hp] at h
  obtain ⟨h1, h2⟩ := h
  cases out with
  | none => cases h1
  | some as =>
    match as, h1, h2, hout with
    | [a, b], h1, h2, hout =>
      simp only [Option.map_some, List.map_cons, List.map_nil, Option.some.injEq, List.cons.injEq, and_true] at h1
      have ha := h2 _ rfl a (by simp)
      have hb := h2 _ rfl b (by simp)
      rw [h1.1] at ha
      rw [h1.2] at hb
      have e1 : exTable (exH (asc "a.com")) = ⟨b32 7, []⟩ := by decide +kernel
      have e2 : exTable (exH (asc "x.a.com")) = ⟨[], []⟩ := by decide +kernel
      rw [e1] at ha
      rw [e2] at hb
      have hpa : a.proofType = PoP := ha.2.2.1.2 (by rw [exIds]; simp)
      have hpb : b.proofType = PoA := by
        have : ¬ b.proofType = PoP := fun h => hb.2.2.1.1 h exNoIds
        unfold verifyProofByDomain at hb
        rw [if_neg this] at hb
        have := hb.2.2.2.2
        simp only [Option.some.injEq, Prod.mk.injEq] at this
        exact this.1.symm
      refine ⟨a, b, hout, h1.1, h1.2, hpa, hpb, hpa ▸ ha.2.2.2.2, hpb ▸ hb.2.2.2.2, ?_, ?_, ?_⟩
      · unfold GetProof at hout
        rw [hp] at hout
        obtain ⟨_, hf, he⟩ := hout
        cases he
        cases hf with
        | cons hx _ =>
          unfold AnswerFor at hx
          simp only at hx
          have hrun : run 256 exTree = .leaf (exH (asc "a.com")) (b32 7) := by decide +kernel
          rw [hrun] at hx
          simp only [merkleProof, if_true] at hx
          obtain ⟨_, _, rfl⟩ := hx
          simp
      · rw [ha.1, exH_length]
      · obtain ⟨_, _, _, h⟩ := ha.2.2.2.1 hpa |>.2.2
        rw [h, exH_length]

/-- The hypotheses of `C13_synced_by_update_partial`, starting with the empty tree and an empty table. -/
example : ∃ payloads, InSync exH (run 256 []) (fun _ => ⟨[], []⟩) ∧ GoodHist 256 [] ∧ (∀ id, id ∉ [[exH (asc "a.com")]].flatten → exTable id = ⟨[], []⟩) ∧
    (∀ id ∈ [[exH (asc "a.com")]].flatten, (exTable id).ids ≠ []) ∧ PayloadsOf exTable payloads ∧
    Dirty.SmtFromBundles exH 256 (run 256 []) ([[exH (asc "a.com")]].map (Dirty.entriesPreserveMissing payloads)) (run 256 exTree) := by
  refine ⟨fun id => some (if id = exH (asc "a.com") then b32 7 else []), ?_, .nil, ?_, ?_, ?_, ?_⟩
  · intro id _
    rw [if_pos exNoIds]
    rfl
  · intro id hid
    simp only [List.flatten_cons, List.flatten_nil, List.append_nil, List.mem_singleton] at hid
    simp [exTable, hid]
  · intro id hid
    simp only [List.flatten_cons, List.flatten_nil, List.append_nil, List.mem_singleton] at hid
    simp [exTable, hid, exIds]
  · intro id
    unfold exTable
    by_cases h : id = exH (asc "a.com")
    · simp only [h, if_true, exIds]
      exact ⟨b32 7, ⟨[b32 7], ⟨List.Perm.refl _, by simp⟩, by simp [idsToBytes]⟩, rfl⟩
    · simp only [h, if_false, exNoIds]
      exact ⟨[], ⟨[], ⟨List.Perm.refl _, by simp⟩, by simp [idsToBytes]⟩, rfl⟩
  · refine .cons _ _ _ _ [(exH (asc "a.com"), some (b32 7))] ⟨?_, by simp⟩ (.nil _)
    have : (Dirty.entriesPreserveMissing (fun id => some (if id = exH (asc "a.com") then b32 7 else [])) [exH (asc "a.com")]).map (Dirty.toKV exH) = [(exH (asc "a.com"), some (b32 7))] := by
      decide +kernel
    rw [this]

/-- The hypotheses of `C13_stale_violated`: the table got another certificate. -/
example : ∃ table : Bytes → Row, get 0 (run 256 exTree) (exH (asc "a.com")) = some (b32 7) ∧ ∀ w, SortIDsAndGlue (table (exH (asc "a.com"))).ids w → exH w ≠ b32 7 := by
  refine ⟨fun _ => ⟨[], []⟩, by decide +kernel, ?_⟩
  intro w hw
  rw [exNoIds] at hw
  obtain ⟨s, hs, rfl⟩ := hw
  have : s = [] := List.Perm.eq_nil hs.perm
  subst this
  decide

end Fpki.Responder
