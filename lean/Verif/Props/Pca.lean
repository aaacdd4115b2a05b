import Verif.Model.Pca
import Verif.Props.PolicyCert

/-!
# C48, C49, C50, C73: the policy CA
-/
namespace Fpki.Pca

open Fpki.Policy
open Fpki.Domain (asc)

variable {Key Pub : Type}

/-! ## Histories -/

/-- The operations of a policy CA. `issue`: the log servers answer as they like, and are asked in any order. -/
inductive Op (Key : Type)
  | new (args : Fields) (now : Time) (ownerSign : Bytes → Option Bytes)
  | issue (sv : Servers) (o1 o2 : List (Bytes × Log)) (req : Fields)

/-- What an operation returns. -/
inductive Res
  | request (r : Option Fields)
  | cert (o : Outcome Cert)

/-- One operation. -/
inductive Step (E : Env Key Pub) : Pca Key → Op Key → Res → Pca Key → Prop
  | new (p args now f) : Step E p (.new args now f) (.request (newRequest E p args now f).1) (newRequest E p args now f).2
  | issue (p sv o1 o2 req) (h1 : o1.Perm p.logs) (h2 : o2.Perm p.logs) :
      Step E p (.issue sv o1 o2 req) (.cert (signAndLog E p sv o1 o2 req).1) (signAndLog E p sv o1 o2 req).2.1

/-- Histories, with what was returned (the oldest first). -/
inductive Hist (E : Env Key Pub) : Pca Key → List Res → Pca Key → Prop
  | nil (p) : Hist E p [] p
  | snoc {p q q' rs r o} (h : Hist E p rs q) (s : Step E q o r q') : Hist E p (rs ++ [r]) q'

/-- The requests returned. -/
def requests : List Res → List Fields := List.filterMap fun r => match r with | .request (some f) => some f | _ => none

/-- The certificates issued. -/
def issued : List Res → List Cert := List.filterMap fun r => match r with | .cert (.ok c) => some c | _ => none

/-! ## Lemmas about a single call -/

/-- What a server answered for the certificate. -/
def Answered (sv : Servers) (pc : Cert) (o : List (Bytes × Log)) (ss : List Spct) : Prop :=
  ss.length = o.length ∧ ∀ (i : Nat) (l : Bytes × Log) (s : Spct), o[i]? = some l → ss[i]? = some s → sv.obtain i l.2.url pc = .spct s

theorem askLogs_ok (sv : Servers) (pc : Cert) : ∀ (o : List (Bytes × Log)) (i : Nat) (ss : List Spct) (ev : List Event), askLogs sv pc i o = (.ok ss, ev) →
    ss.length = o.length ∧ (∀ (j : Nat) (l : Bytes × Log) (s : Spct), o[j]? = some l → ss[j]? = some s → sv.obtain (i + j) l.2.url pc = .spct s) ∧ ev = o.map (fun l => .asked l.2.url pc)
  | [], i, ss, ev, h => by cases h; exact ⟨rfl, fun j l s hj => by simp at hj, rfl⟩
  | l :: o, i, ss, ev, h => by
    unfold askLogs at h
    split at h
    · cases h
    · cases h
    · rename_i s hs
      split at h
      · rename_i ss' ev' hr
        cases h
        obtain ⟨h1, h2, h3⟩ := askLogs_ok sv pc o (i + 1) ss' ev' hr
        refine ⟨by simp [h1], fun j l' s' hj hs' => ?_, by rw [h3]; rfl⟩
        cases j with
        | zero =>
          simp only [List.getElem?_cons_zero, Option.some.injEq] at hj hs'
          subst hj; subst hs'
          exact hs
        | succ j =>
          simp only [List.getElem?_cons_succ] at hj hs'
          have := h2 j l' s' hj hs'
          rw [show i + (j + 1) = i + 1 + j by omega]
          exact this
      · cases h
      · cases h

theorem askLogs_complete (sv : Servers) (pc : Cert) : ∀ (o : List (Bytes × Log)) (i : Nat),
    (∀ (j : Nat) (l : Bytes × Log), o[j]? = some l → ∃ s, sv.obtain (i + j) l.2.url pc = .spct s) → ∃ ss ev, askLogs sv pc i o = (.ok ss, ev)
  | [], i, _ => ⟨[], [], rfl⟩
  | l :: o, i, h => by
    obtain ⟨s, hs⟩ := h 0 l rfl
    obtain ⟨ss, ev, hr⟩ := askLogs_complete sv pc o (i + 1) (fun j l' hj => by
      obtain ⟨s, hs⟩ := h (j + 1) l' hj
      exact ⟨s, by rw [← hs]; congr 1; omega⟩)
    exact ⟨s :: ss, .asked l.2.url pc :: ev, by unfold askLogs; rw [show sv.obtain i l.2.url pc = .spct s from hs, hr]⟩

theorem sendFinal_iff (sv : Servers) (pc : Cert) : ∀ (o : List (Bytes × Log)) (i : Nat),
    (sendFinal sv pc i o).1 = true ↔ ∀ (j : Nat) (l : Bytes × Log), o[j]? = some l → sv.send (i + j) l.2.url pc = true
  | [], i => by simp [sendFinal]
  | l :: o, i => by
    unfold sendFinal
    split
    · rename_i h
      show (sendFinal sv pc (i + 1) o).1 = true ↔ _
      rw [sendFinal_iff sv pc o (i + 1)]
      constructor
      · intro hr j l' hj
        cases j with
        | zero =>
          simp only [List.getElem?_cons_zero, Option.some.injEq] at hj
          subst hj
          exact h
        | succ j =>
          have := hr j l' hj
          rw [show i + (j + 1) = i + 1 + j by omega]
          exact this
      · intro hr j l' hj
        have := hr (j + 1) l' hj
        rw [show i + 1 + j = i + (j + 1) by omega]
        exact this
    · rename_i h
      simp only [Bool.false_eq_true, false_iff]
      exact fun hr => h (hr 0 l rfl)

theorem sendFinal_events (sv : Servers) (pc : Cert) : ∀ (o : List (Bytes × Log)) (i : Nat) (ev : List Event), sendFinal sv pc i o = (true, ev) → ev = o.map (fun l => .final l.2.url pc)
  | [], i, ev, h => by cases h; rfl
  | l :: o, i, ev, h => by
    unfold sendFinal at h
    split at h
    · simp only [Prod.mk.injEq] at h
      rw [← h.2, sendFinal_events sv pc o (i + 1) (sendFinal sv pc (i + 1) o).2 (Prod.ext h.1 rfl)]
      rfl
    · cases h

theorem signAsIssuer_shape {E : Env Key Pub} {issuer : Cert} {key : Key} {child child' : Cert} (h : signAsIssuer E issuer key child = some child') :
    ∃ hh s m, computeHashAsSigner E issuer = some hh ∧ E.enc { child with issuerHash := some hh } = some m ∧ E.sign key m = some s ∧ child' = { child with issuerHash := some hh, issuerSignature := some s } := by
  unfold signAsIssuer at h
  split at h
  · cases h
  · split at h
    · cases h
    · rename_i hh h1
      split at h
      · cases h
      · rename_i m h2
        split at h
        · cases h
        · rename_i s h3
          cases h
          exact ⟨hh, s, m, h1, h2, h3, rfl⟩

/-! ## C50 -/

/-- C50: if `SignAndLogRequest` returns a certificate, then every log server was asked for a time stamp and answered with one, every log server got and accepted the returned certificate, and the certificate consists of the request's fields and these time stamps in the order of the answers; it is stored under the hash of its public key and nothing else changes. -/
theorem C50_success (E : Env Key Pub) (p : Pca Key) (sv : Servers) (o1 o2 : List (Bytes × Log)) (req : Fields) (c : Cert) (p' : Pca Key) (ev : List Event)
    (h : signAndLog E p sv o1 o2 req = (.ok c, p', ev)) :
    (∃ pre : Cert, pre.toFields = { req with raw := none } ∧ pre.spcts = [] ∧ Answered sv pre o1 c.spcts ∧
      ev = o1.map (fun l => .asked l.2.url pre) ++ o2.map (fun l => .final l.2.url c)) ∧
    (∀ (i : Nat) (l : Bytes × Log), o2[i]? = some l → sv.send i l.2.url c = true) ∧
    c.toFields = { req with raw := none } ∧
    p'.db = (fun k => if k = E.H (req.publicKey.getD []) then some c else p.db k) ∧
    (p'.root, p'.key, p'.logs, p'.serial) = (p.root, p.key, p.logs, p.serial) := by
  unfold signAndLog at h
  split at h
  · cases h
  · split at h
    · cases h
    · rename_i pc hpc
      obtain ⟨hh, s, m, _, _, _, e1⟩ := signAsIssuer_shape hpc
      split at h
      · cases h
      · cases h
      · rename_i spcts ev1 hask
        split at h
        · cases h
        · rename_i fin hfin
          obtain ⟨hh', s', m', _, _, _, e2⟩ := signAsIssuer_shape hfin
          split at h
          · cases h
          · rename_i ev2 hsend
            cases h
            obtain ⟨a1, a2, a3⟩ := askLogs_ok sv pc o1 0 spcts ev1 hask
            have hsp : c.spcts = spcts := by rw [e2]
            have hf : c.toFields = { req with raw := none } := by rw [e2, e1]; rfl
            refine ⟨⟨pc, by rw [e1]; rfl, by rw [e1]; rfl, ?_, ?_⟩, ?_, hf, ?_, rfl⟩
            · rw [hsp]
              refine ⟨a1, fun i l x hi hx => ?_⟩
              have := a2 i l x hi hx
              rwa [Nat.zero_add] at this
            · rw [a3, sendFinal_events sv c o2 0 ev2 hsend]
            · intro i l hi
              have := (sendFinal_iff sv c o2 0).mp (by rw [hsend]) i l hi
              rwa [Nat.zero_add] at this
            · show (fun k => if k = E.H (c.publicKey.getD []) then some c else p.db k) = _
              have : c.publicKey = req.publicKey := by rw [show c.publicKey = c.toFields.publicKey from rfl, hf]
              rw [this]

/-- C50: without success nothing is stored: the CA is as before. -/
theorem C50_failure_unchanged (E : Env Key Pub) (p : Pca Key) (sv : Servers) (o1 o2 : List (Bytes × Log)) (req : Fields) (r : Outcome Cert) (p' : Pca Key) (ev : List Event)
    (h : signAndLog E p sv o1 o2 req = (r, p', ev)) (hr : ∀ c, r ≠ .ok c) : p' = p := by
  unfold signAndLog at h
  split at h
  · cases h; rfl
  · split at h
    · cases h; rfl
    · split at h
      · cases h; rfl
      · cases h; rfl
      · split at h
        · cases h; rfl
        · split at h
          · cases h; rfl
          · cases h; exact absurd rfl (hr _)

/-- C50: the returned certificate verifies with the CA's certificate, and an owner signature in it verifies exactly if it does in the request. -/
theorem C50_certificate_verifies (E : Env Key Pub) (hf : E.Faithful) (p : Pca Key) {pub : Pub} (hk : E.KeyOf p.root p.key pub) (sv : Servers) (o1 o2 : List (Bytes × Log)) (req : Fields) (c : Cert) (p' : Pca Key)
    (ev : List Event) (h : signAndLog E p sv o1 o2 req = (.ok c, p', ev)) :
    verifyIssuer E p'.root c = (true, c) ∧ ∀ owner, (verifyOwner E owner c).1 = verifyOwnerRequest E owner req := by
  have hfields := (C50_success E p sv o1 o2 req c p' ev h).2.2.1
  have hroot : p'.root = p.root := congrArg Prod.fst (C50_success E p sv o1 o2 req c p' ev h).2.2.2.2
  refine ⟨?_, fun owner => ?_⟩
  · unfold signAndLog at h
    split at h
    · cases h
    · split at h
      · cases h
      · split at h
        · cases h
        · cases h
        · split at h
          · cases h
          · rename_i fin hfin
            split at h
            · cases h
            · cases h
              exact C46_signed_verifies E hk hfin p.root.issuerSignature p.root.spcts
  · have e1 : c.ownerHash = req.ownerHash := by rw [show c.ownerHash = c.toFields.ownerHash from rfl, hfields]
    have e2 : c.ownerSignature = req.ownerSignature := by rw [show c.ownerSignature = c.toFields.ownerSignature from rfl, hfields]
    have e3 : c.withoutForOwner = (certFromRequest req).withoutForOwner := by
      have : c.withoutForOwner = { toFields := { c.toFields with ownerSignature := none }, issuerSignature := none, issuerHash := none, spcts := [] } := rfl
      rw [this, hfields]
      rfl
    unfold verifyOwnerRequest verifyOwner
    split
    · rfl
    · rename_i hh _
      rw [e1]
      show _ = (if req.ownerHash.getD [] ≠ hh then _ else _ : Bool × Cert).1
      split
      · rfl
      · split
        · rfl
        · rw [e3]
          split
          · rfl
          · rw [e2]; rfl

/-- C50, the other direction: if the owner check gives no error, signing works and every log server answers and accepts, a certificate is returned. -/
theorem C50_complete (E : Env Key Pub) (p : Pca Key) (sv : Servers) (o1 o2 : List (Bytes × Log)) (req : Fields) (hskip : canSkip E p req ≠ none)
    (hroot : computeHashAsSigner E p.root ≠ none) (henc : ∀ c, E.enc c ≠ none) (hsign : ∀ m, E.sign p.key m ≠ none)
    (hans : ∀ i url c, ∃ s, sv.obtain i url c = .spct s) (hacc : ∀ i url c, sv.send i url c = true) : ∃ c, (signAndLog E p sv o1 o2 req).1 = .ok c := by
  have hsg : ∀ child : Cert, child.issuerSignature = none → child.issuerHash = none → ∃ c, signAsIssuer E p.root p.key child = some c := by
    intro child h1 h2
    unfold signAsIssuer
    rw [if_neg (by simp [h1, h2])]
    split
    · rename_i h; exact absurd h hroot
    · split
      · rename_i h; exact absurd h (henc _)
      · split
        · rename_i h; exact absurd h (hsign _)
        · exact ⟨_, rfl⟩
  unfold signAndLog
  split
  · rename_i h; exact absurd h hskip
  · obtain ⟨pc, hpc⟩ := hsg (certFromRequest req) rfl rfl
    rw [show signRequestAsIssuer E p.root p.key req = some pc from hpc]
    dsimp only
    obtain ⟨ss, ev, hask⟩ := askLogs_complete sv pc o1 0 (fun j l _ => hans _ _ _)
    rw [hask]
    dsimp only
    obtain ⟨fin, hfin⟩ := hsg { pc with spcts := ss, issuerSignature := none, issuerHash := none } rfl rfl
    rw [show signFinal E p { pc with spcts := ss } = some fin from hfin]
    dsimp only
    have hs := (sendFinal_iff sv fin o2 0).mpr (fun j l _ => hacc _ _ _)
    split
    · rename_i ev' h'; rw [h'] at hs; cases hs
    · exact ⟨_, rfl⟩

/-- C50 is violated for configurations that list two log servers with the same public key: only the last one is ever asked (both servers of the CA's own test configuration have the same key). -/
theorem C50_same_key_violated (E : Env Key Pub) (url url' pk : Bytes) : loadLogs E [⟨url, pk⟩, ⟨url', pk⟩] = [(E.H pk, ⟨url', pk⟩)] := by
  simp [loadLogs, insertLog]

theorem loadLogs_mem (E : Env Key Pub) : ∀ (config : List Log) (m : List (Bytes × Log)), (config.map Log.publicKey).Nodup → (∀ a ∈ config, ∀ b ∈ config, E.H a.publicKey = E.H b.publicKey → a.publicKey = b.publicKey) →
    (∀ a ∈ config, ∀ e ∈ m, e.1 ≠ E.H a.publicKey) →
    (config.foldl (fun m l => insertLog m (E.H l.publicKey) l) m) = m ++ config.map (fun l => (E.H l.publicKey, l))
  | [], m, _, _, _ => by simp
  | l :: config, m, hn, hi, hm => by
    rw [List.foldl_cons]
    have h1 : insertLog m (E.H l.publicKey) l = m ++ [(E.H l.publicKey, l)] := by
      unfold insertLog
      congr 1
      rw [List.filter_eq_self]
      intro e he
      simpa using hm l (by simp) e he
    rw [h1, loadLogs_mem E config _ (List.nodup_cons.mp hn).2 (fun a ha b hb => hi a (by simp [ha]) b (by simp [hb]))]
    · simp
    · intro a ha e he
      rcases List.mem_append.mp he with he | he
      · exact hm a (by simp [ha]) e he
      · rw [List.mem_singleton] at he
        subst he
        intro hc
        have := hi l (by simp) a (by simp [ha]) hc
        exact (List.nodup_cons.mp hn).1 (List.mem_map.mpr ⟨a, ha, this.symm⟩)

/-- With different public keys (and no collision among them) every configured log server is used. -/
theorem C50_config_partial (E : Env Key Pub) (config : List Log) (hn : (config.map Log.publicKey).Nodup)
    (hi : ∀ a ∈ config, ∀ b ∈ config, E.H a.publicKey = E.H b.publicKey → a.publicKey = b.publicKey) : (loadLogs E config).map Prod.snd = config := by
  unfold loadLogs
  rw [loadLogs_mem E config [] hn hi (by simp)]
  simp [List.map_map, Function.comp_def]

/-! ## C48 -/

theorem newRequest_some {E : Env Key Pub} {p p' : Pca Key} {args r : Fields} {now : Time} {f : Bytes → Option Bytes} (h : newRequest E p args now f = (some r, p')) :
    r.serial = p.serial + 1 ∧ p'.serial = p.serial + 1 ∧ r.notBefore = args.notBefore ∧ r.notAfter = args.notAfter ∧ p.root.notBefore.ns ≤ args.notBefore.ns ∧ args.notAfter.ns ≤ p.root.notAfter.ns := by
  unfold newRequest at h
  split at h
  · cases h
  · split at h
    · cases h
    · dsimp only at h
      split at h
      · cases h
      · cases h
        refine ⟨rfl, rfl, rfl, rfl, by omega, by omega⟩

theorem newRequest_serial_le (E : Env Key Pub) (p : Pca Key) (args : Fields) (now : Time) (f : Bytes → Option Bytes) : p.serial ≤ (newRequest E p args now f).2.serial := by
  unfold newRequest
  split
  · exact Int.le_refl _
  · split
    · exact Int.le_refl _
    · dsimp only
      split <;> (dsimp only; omega)

theorem signAndLog_serial (E : Env Key Pub) (p : Pca Key) (sv : Servers) (o1 o2 : List (Bytes × Log)) (req : Fields) : (signAndLog E p sv o1 o2 req).2.1.serial = p.serial := by
  cases h : signAndLog E p sv o1 o2 req with
  | mk r rest =>
    cases rest with
    | mk p' ev =>
      cases r with
      | ok c =>
        have := (C50_success E p sv o1 o2 req c p' ev h).2.2.2.2
        simp only [Prod.mk.injEq] at this
        exact this.2.2.2
      | err => exact congrArg Pca.serial (C50_failure_unchanged E p sv o1 o2 req _ p' ev h (by intro c hc; cases hc))
      | panic => exact congrArg Pca.serial (C50_failure_unchanged E p sv o1 o2 req _ p' ev h (by intro c hc; cases hc))

/-- C48 (partial: the requests that the CA makes; not what it signs): in every history the requests returned by `NewPolicyCertificateSigningRequest` have increasing serial numbers, all above the CA's counter at the beginning. -/
theorem C48_requests_increase_partial (E : Env Key Pub) {p q : Pca Key} {rs : List Res} (h : Hist E p rs q) :
    ((requests rs).map Fields.serial).Pairwise (· < ·) ∧ p.serial ≤ q.serial ∧ ∀ r ∈ requests rs, p.serial < r.serial ∧ r.serial ≤ q.serial := by
  induction h with
  | nil => exact ⟨List.Pairwise.nil, Int.le_refl _, fun r hr => by simp [requests] at hr⟩
  | @snoc q0 q1 rs r o h s ih =>
    obtain ⟨i1, i2, i3⟩ := ih
    have ha : requests (rs ++ [r]) = requests rs ++ requests [r] := by simp [requests]
    rw [ha]
    cases s with
    | new args now f =>
      have hle := newRequest_serial_le E q0 args now f
      cases hr : newRequest E q0 args now f with
      | mk x p' =>
        rw [hr] at hle
        dsimp only at hle ⊢
        cases x with
        | none =>
          have : requests [Res.request none] = [] := rfl
          rw [this, List.append_nil]
          exact ⟨i1, by omega, fun r hr => ⟨(i3 r hr).1, by have := (i3 r hr).2; omega⟩⟩
        | some x =>
          obtain ⟨e1, e2, _⟩ := newRequest_some hr
          have : requests [Res.request (some x)] = [x] := rfl
          rw [this]
          refine ⟨?_, by omega, ?_⟩
          · rw [List.map_append, List.pairwise_append]
            refine ⟨i1, List.pairwise_singleton _ _, ?_⟩
            intro a ha b hb
            rw [List.mem_map] at ha
            obtain ⟨r, hr, rfl⟩ := ha
            simp only [List.map_cons, List.map_nil, List.mem_singleton] at hb
            have := (i3 r hr).2
            omega
          · intro r hr
            rcases List.mem_append.mp hr with hr | hr
            · exact ⟨(i3 r hr).1, by have := (i3 r hr).2; omega⟩
            · rw [List.mem_singleton] at hr
              subst hr
              omega
    | issue sv o1 o2 req =>
      have hs := signAndLog_serial E q0 sv o1 o2 req
      have : requests [Res.cert (signAndLog E q0 sv o1 o2 req).1] = [] := rfl
      rw [this, List.append_nil, hs]
      exact ⟨i1, i2, i3⟩

/-- The CA does not look at the serial number of what it signs: a certificate has the serial number of the request, whatever it is. -/
theorem C48_serial_of_request (E : Env Key Pub) (p : Pca Key) (sv : Servers) (o1 o2 : List (Bytes × Log)) (req : Fields) (c : Cert) (p' : Pca Key) (ev : List Event)
    (h : signAndLog E p sv o1 o2 req = (.ok c, p', ev)) : c.serial = req.serial := by
  have := (C50_success E p sv o1 o2 req c p' ev h).2.2.1
  rw [show c.serial = c.toFields.serial from rfl, this]

/-! ## C73 -/

/-- C73 (partial: the validity period of the requests that the CA makes): such a request lies inside the CA's own validity. -/
theorem C73_created_partial (E : Env Key Pub) (p p' : Pca Key) (args r : Fields) (now : Time) (f : Bytes → Option Bytes) (h : newRequest E p args now f = (some r, p')) :
    p.root.notBefore.ns ≤ r.notBefore.ns ∧ r.notAfter.ns ≤ p.root.notAfter.ns := by
  obtain ⟨_, _, h1, h2, h3, h4⟩ := newRequest_some h
  rw [h1, h2]
  exact ⟨h3, h4⟩

/-- The requests that the CA makes carry a valid owner signature if the owner signs what it is given. -/
theorem C73_owner_signature (E : Env Key Pub) (hf : E.Faithful) (p p' : Pca Key) (args r : Fields) (now : Time) {owner : Cert} {okey : Key} {pub : Pub} (hk : E.KeyOf owner okey pub)
    (hh : computeHashAsSigner E owner = some (args.ownerHash.getD [])) (hsign : ∀ m, E.sign okey m ≠ none) (h : newRequest E p args now (E.sign okey) = (some r, p')) : verifyOwnerRequest E owner r = true := by
  unfold newRequest at h
  split at h
  · cases h
  · split at h
    · cases h
    · dsimp only at h
      split at h
      · cases h
      · rename_i m hm
        cases h
        cases hs : E.sign okey m with
        | none => exact absurd hs (hsign m)
        | some s =>
          unfold verifyOwnerRequest verifyOwner
          rw [hh]
          dsimp only
          rw [if_neg (by simp [certFromRequest])]
          rw [hk.parses]
          dsimp only
          have : E.enc (certFromRequest { args with raw := none, serial := p.serial + 1, timeStamp := now, ownerSignature := some s }).withoutForOwner = some m := by
            rw [← hm]
            apply hf.shown
            rfl
          rw [this]
          exact hk.correct m s hs

/-! ## C49 -/

/-- Everything stored is stored under the hash of its public key. -/
def Keyed (E : Env Key Pub) (p : Pca Key) : Prop := ∀ k c, p.db k = some c → k = E.H (c.publicKey.getD [])

theorem Hist.keyed {E : Env Key Pub} {p q : Pca Key} {rs : List Res} (h : Hist E p rs q) (hp : Keyed E p) : Keyed E q := by
  induction h with
  | nil => exact hp
  | @snoc q0 q1 rs r o h s ih =>
    cases s with
    | new args now f =>
      have : (newRequest E q0 args now f).2.db = q0.db := by
        unfold newRequest
        split
        · rfl
        · split
          · rfl
          · dsimp only
            split <;> rfl
      intro k c hk
      rw [this] at hk
      exact ih k c hk
    | issue sv o1 o2 req =>
      cases hr : signAndLog E q0 sv o1 o2 req with
      | mk r rest =>
        cases rest with
        | mk p' ev =>
          have hcase : (∃ c, r = .ok c) ∨ ∀ c, r ≠ .ok c := by
            cases r with
            | ok c => exact Or.inl ⟨c, rfl⟩
            | err => exact Or.inr (by intro c hc; cases hc)
            | panic => exact Or.inr (by intro c hc; cases hc)
          intro k c hk
          dsimp only at hk
          rcases hcase with ⟨c', rfl⟩ | hn
          · have hs := C50_success E q0 sv o1 o2 req c' p' ev hr
            have hpk : c'.publicKey = req.publicKey := by rw [show c'.publicKey = c'.toFields.publicKey from rfl, hs.2.2.1]
            rw [hs.2.2.2.1] at hk
            dsimp only at hk
            split at hk
            · rename_i he
              cases hk
              rw [he, hpk]
            · exact ih k c hk
          · rw [C50_failure_unchanged E q0 sv o1 o2 req r p' ev hr hn] at hk
            exact ih k c hk

/-- C49 is violated: in no history does the CA recognise a request that was signed with `SignAsOwner`, whatever it has issued and stored, also not if the owner's certificate was issued by the CA itself: certificates are stored under the hash of the public key and looked up under the hash of the certificate's JSON text. (Unless the text is a stored public key, or the two hashes collide; the CA then refuses the request or accepts it, see `C49_blocked_violated`.) -/
theorem C49_not_recognised_violated (E : Env Key Pub) {p q : Pca Key} {rs : List Res} (h : Hist E p rs q) (hp : ∀ k, p.db k = none) {owner : Cert} {key : Key} {req req' : Fields}
    (hs : signAsOwner E owner key req = some req') (x : Bytes) (hx : E.enc { owner with spcts := [], issuerSignature := none } = some x)
    (hcr : ∀ k c, q.db k = some c → E.H (c.publicKey.getD []) ≠ E.H x) : canSkip E q req' ≠ some true := by
  have hk : Keyed E q := h.keyed (fun k c hk => by rw [hp k] at hk; cases hk)
  have hoh : req'.ownerHash = some (E.H x) := by
    unfold signAsOwner at hs
    split at hs
    · cases hs
    · split at hs
      · cases hs
      · have hch : computeHashAsSigner E owner = some (E.H x) := by unfold computeHashAsSigner; rw [hx]; rfl
        rw [hch] at hs
        dsimp only at hs
        split at hs
        · cases hs
        · split at hs
          · cases hs
          · cases hs; rfl
  unfold canSkip
  rw [hoh]
  split
  · intro hc; cases hc
  · split
    · intro hc; cases hc
    · split
      · intro hc; cases hc
      · rename_i stored hst
        simp only [Option.getD_some] at hst
        exact absurd (hk _ _ hst).symm (hcr _ _ hst)

/-- C49 (partial): the CA would recognise the owner if the certificate were stored under the hash of its text, as the lookup expects. -/
theorem C49_recognised_partial (E : Env Key Pub) (hf : E.Faithful) (p : Pca Key) {owner : Cert} {key : Key} {pub : Pub} (hk : E.KeyOf owner key pub) {req req' : Fields} (hs : signAsOwner E owner key req = some req')
    (hlen : (req'.ownerHash.getD []).length = 32) (hsig : req'.ownerSignature.getD [] ≠ []) (hst : p.db (req'.ownerHash.getD []) = some owner) : canSkip E p req' = some true := by
  unfold canSkip
  rw [if_neg (by intro hc; exact hsig (List.eq_nil_of_length_eq_zero hc)), if_neg (by simp [hlen]), hst]
  dsimp only
  rw [(C45_signed_verifies E hk hs hf none none [] none []).1]
  rfl

/-- A wrong or missing owner signature does not matter: a request is signed just the same if the CA finds no certificate under the owner hash. -/
theorem C49_cool_off_violated (E : Env Key Pub) (p : Pca Key) (req : Fields) (h : p.db (req.ownerHash.getD []) = none) (hlen : (req.ownerHash.getD []).length = 32) : canSkip E p req = some false := by
  unfold canSkip
  split
  · rfl
  · rw [if_neg (by simp [hlen]), h]

/-- An attacker can keep an owner from getting certificates: if some stored certificate has the owner's JSON text as its public key (the CA does not look at public keys), every request signed by the owner is refused, since that certificate is not the one that signed. -/
theorem C49_blocked_violated (E : Env Key Pub) (p : Pca Key) {owner evil : Cert} {key : Key} {req req' : Fields} (hs : signAsOwner E owner key req = some req') (x : Bytes)
    (hx : E.enc { owner with spcts := [], issuerSignature := none } = some x) (hlen : (E.H x).length = 32) (hsig : req'.ownerSignature.getD [] ≠ [])
    (hevil : evil.publicKey = some x) (hst : p.db (E.H (evil.publicKey.getD [])) = some evil) (hne : computeHashAsSigner E evil ≠ some (E.H x)) (sv : Servers) (o1 o2 : List (Bytes × Log)) :
    signAndLog E p sv o1 o2 req' = (.err, p, []) := by
  have hoh : req'.ownerHash = some (E.H x) := by
    unfold signAsOwner at hs
    split at hs
    · cases hs
    · split at hs
      · cases hs
      · have hch : computeHashAsSigner E owner = some (E.H x) := by unfold computeHashAsSigner; rw [hx]; rfl
        rw [hch] at hs
        dsimp only at hs
        split at hs
        · cases hs
        · split at hs
          · cases hs
          · cases hs; rfl
  have hc : canSkip E p req' = none := by
    unfold canSkip
    rw [if_neg (by intro hc; exact hsig (List.eq_nil_of_length_eq_zero hc)), hoh]
    rw [hevil] at hst
    simp only [Option.getD_some] at hst ⊢
    rw [if_neg (by simp [hlen]), hst]
    dsimp only
    have hv : verifyOwnerRequest E evil req' = false := by
      unfold verifyOwnerRequest verifyOwner
      split
      · rfl
      · rename_i hh hhh
        show (if req'.ownerHash.getD [] ≠ hh then _ else _ : Bool × Cert).1 = false
        rw [hoh, if_pos]
        intro he
        exact hne (by rw [hhh]; simp only [Option.getD_some] at he; rw [he])
    rw [hv]
    rfl
  unfold signAndLog
  rw [hc]

/-! ## Concrete cases -/

/-- Log servers that always answer. -/
def exServers : Servers := ⟨fun i _ _ => .spct ⟨none, i, none, exTime 6, none⟩, fun _ _ _ => true⟩

def exLogs : List (Bytes × Log) := [([1], ⟨asc "log1", [1]⟩), ([2], ⟨asc "log2", [2]⟩)]

def exPca : Pca Bytes := ⟨certFromRequest (exFields (asc "com") 1), [1, 2, 3], exLogs, fun _ => none, 0⟩

theorem exPca_signs (req : Fields) (h : req.ownerSignature = none) : ∃ c, (signAndLog exEnv exPca exServers exLogs exLogs req).1 = .ok c :=
  C50_complete exEnv exPca exServers exLogs exLogs req (by unfold canSkip; rw [h]; simp) (by intro h; cases h) (by intro c h; cases h) (by intro m h; cases h)
    (fun i _ _ => ⟨_, rfl⟩) (fun _ _ _ => rfl)

/-- The hypotheses of `C50_success` and the theorems that use it are met. -/
example : ∃ c p' ev, signAndLog exEnv exPca exServers exLogs exLogs (exFields (asc "example.com") 7) = (.ok c, p', ev) := by
  obtain ⟨c, hc⟩ := exPca_signs (exFields (asc "example.com") 7) rfl
  exact ⟨c, _, _, Prod.ext hc rfl⟩

/-- Those of `C50_failure_unchanged` too: the second log server does not accept. -/
example : (signAndLog exEnv exPca { exServers with send := fun i _ _ => i = 0 } exLogs exLogs (exFields (asc "example.com") 7)).1 = .err := rfl

/-- A log server that returns neither a time stamp nor an error makes the CA panic. -/
theorem C50_nil_spct_panics (E : Env Key Pub) (p : Pca Key) (sv : Servers) (l : Bytes × Log) (o1 o2 : List (Bytes × Log)) (req : Fields) (hc : canSkip E p req ≠ none) (pc : Cert)
    (hs : signRequestAsIssuer E p.root p.key req = some pc) (hn : sv.obtain 0 l.2.url pc = .nil) : (signAndLog E p sv (l :: o1) o2 req).1 = .panic := by
  unfold signAndLog
  split
  · rename_i h; exact absurd h hc
  · rw [hs]
    dsimp only [askLogs]
    rw [hn]

/-- C48 is violated: the same CA issues two certificates with the same serial number for different domains, in two consecutive calls. -/
theorem C48_duplicate_violated : ∃ (rs : List Res) (q : Pca Bytes) (c c' : Cert), Hist exEnv exPca rs q ∧ issued rs = [c, c'] ∧ c.serial = c'.serial ∧ c.domain ≠ c'.domain := by
  obtain ⟨c, hc⟩ := exPca_signs (exFields (asc "a.com") 7) rfl
  have h1 : signAndLog exEnv exPca exServers exLogs exLogs (exFields (asc "a.com") 7) = (.ok c, (signAndLog exEnv exPca exServers exLogs exLogs (exFields (asc "a.com") 7)).2.1, (signAndLog exEnv exPca exServers exLogs exLogs (exFields (asc "a.com") 7)).2.2) := Prod.ext hc rfl
  have hinv := (C50_success _ _ _ _ _ _ _ _ _ h1).2.2.2.2
  have hf := (C50_success _ _ _ _ _ _ _ _ _ h1).2.2.1
  generalize hq : (signAndLog exEnv exPca exServers exLogs exLogs (exFields (asc "a.com") 7)).2.1 = q at *
  simp only [Prod.mk.injEq] at hinv
  obtain ⟨c', hc'⟩ := C50_complete exEnv q exServers exLogs exLogs (exFields (asc "b.com") 7) (by intro h; cases h) (by rw [hinv.1]; intro h; cases h) (by intro c h; cases h)
    (by intro m h; cases h) (fun i _ _ => ⟨_, rfl⟩) (fun _ _ _ => rfl)
  have h2 : signAndLog exEnv q exServers exLogs exLogs (exFields (asc "b.com") 7) = (.ok c', (signAndLog exEnv q exServers exLogs exLogs (exFields (asc "b.com") 7)).2.1, (signAndLog exEnv q exServers exLogs exLogs (exFields (asc "b.com") 7)).2.2) := Prod.ext hc' rfl
  have hf' := (C50_success _ _ _ _ _ _ _ _ _ h2).2.2.1
  refine ⟨[] ++ [.cert (.ok c)] ++ [.cert (.ok c')], (signAndLog exEnv q exServers exLogs exLogs (exFields (asc "b.com") 7)).2.1, c, c', ?_, rfl, ?_, ?_⟩
  · have hq1 : Hist exEnv exPca ([] ++ [.cert (.ok c)]) q := by
      have := Step.issue (E := exEnv) exPca exServers exLogs exLogs (exFields (asc "a.com") 7) (List.Perm.refl _) (List.Perm.refl _)
      rw [hc, hq] at this
      exact .snoc (.nil _) this
    refine .snoc hq1 (o := .issue exServers exLogs exLogs (exFields (asc "b.com") 7)) ?_
    · have := Step.issue (E := exEnv) q exServers exLogs exLogs (exFields (asc "b.com") 7) (by rw [hinv.2.2.1]; exact List.Perm.refl _) (by rw [hinv.2.2.1]; exact List.Perm.refl _)
      rw [hc'] at this
      exact this
  · rw [show c.serial = c.toFields.serial from rfl, show c'.serial = c'.toFields.serial from rfl, hf, hf']
    rfl
  · rw [show c.domain = c.toFields.domain from rfl, show c'.domain = c'.toFields.domain from rfl, hf, hf']
    decide +kernel

/-- C73 is violated: a request that is not made by the CA is signed although it is valid longer than the CA. -/
theorem C73_signed_violated : ∃ (req : Fields) (c : Cert), (signAndLog exEnv exPca exServers exLogs exLogs req).1 = .ok c ∧ exPca.root.notAfter.ns < c.notAfter.ns ∧ verifyIssuerConstraints exPca.root c = false := by
  obtain ⟨c, hc⟩ := exPca_signs { exFields (asc "a.com") 7 with notAfter := exTime 1000 } rfl
  have hf := (C50_success _ _ _ _ _ _ c _ _ (Prod.ext hc rfl)).2.2.1
  have h1 : c.notBefore = exTime 10 := by rw [show c.notBefore = c.toFields.notBefore from rfl, hf]; rfl
  have h2 : c.notAfter = exTime 1000 := by rw [show c.notAfter = c.toFields.notAfter from rfl, hf]
  refine ⟨_, c, hc, by rw [h2]; decide, ?_⟩
  unfold verifyIssuerConstraints
  rw [h1, h2, if_neg (by decide), if_pos (by decide)]

/-- The hypotheses of `C73_created_partial` are met, and those of `C73_owner_signature`. -/
example : ∃ r p', newRequest exEnv exPca (exFields (asc "example.com") 0) (exTime 12) (exEnv.sign [1, 2, 3]) = (some r, p') := ⟨_, _, rfl⟩

example : ∃ req' x, signAsOwner exEnv (certFromRequest (exFields (asc "example.com") 1)) [1, 2, 3] (exFields (asc "a.example.com") 2) = some req' ∧
    exEnv.enc { certFromRequest (exFields (asc "example.com") 1) with spcts := [], issuerSignature := none } = some x ∧ Hist exEnv exPca [] exPca ∧ ∀ k, exPca.db k = none := ⟨_, _, rfl, rfl, .nil _, fun _ => rfl⟩

/-- C49 for a certificate issued by the CA itself: the owner signs a new request with its key, and the CA does not recognise it. (The environment has no collisions.) -/
theorem C49_own_certificate_violated : ∃ (owner : Cert) (rs : List Res) (q : Pca Bytes) (req' : Fields), Hist exEnv exPca rs q ∧ issued rs = [owner] ∧
    signAsOwner exEnv owner [1, 2, 3] (exFields (asc "a.example.com") 2) = some req' ∧ canSkip exEnv q req' = some false := by
  obtain ⟨c, hc⟩ := exPca_signs (exFields (asc "example.com") 7) rfl
  have h1 : signAndLog exEnv exPca exServers exLogs exLogs (exFields (asc "example.com") 7) = (.ok c, (signAndLog exEnv exPca exServers exLogs exLogs (exFields (asc "example.com") 7)).2.1, (signAndLog exEnv exPca exServers exLogs exLogs (exFields (asc "example.com") 7)).2.2) := Prod.ext hc rfl
  have hf := (C50_success _ _ _ _ _ _ _ _ _ h1).2.2.1
  have hown : c.canOwn = true := by rw [show c.canOwn = c.toFields.canOwn from rfl, hf]; rfl
  have hsig : ∃ req', signAsOwner exEnv c [1, 2, 3] (exFields (asc "a.example.com") 2) = some req' := by
    unfold signAsOwner
    rw [if_neg (by simp [exFields]), if_neg (by simp [hown])]
    exact ⟨_, rfl⟩
  obtain ⟨req', hreq⟩ := hsig
  have hh : req'.ownerHash = some (List.replicate 32 0) ∧ req'.ownerSignature.getD [] ≠ [] := by
    unfold signAsOwner at hreq
    rw [if_neg (by simp [exFields]), if_neg (by simp [hown])] at hreq
    cases hreq
    exact ⟨rfl, by intro h; cases h⟩
  refine ⟨c, [] ++ [.cert (.ok c)], (signAndLog exEnv exPca exServers exLogs exLogs (exFields (asc "example.com") 7)).2.1, req', ?_, rfl, hreq, ?_⟩
  · have := Step.issue (E := exEnv) exPca exServers exLogs exLogs (exFields (asc "example.com") 7) (List.Perm.refl _) (List.Perm.refl _)
    rw [hc] at this
    exact .snoc (.nil _) this
  · have hdb := (C50_success _ _ _ _ _ _ _ _ _ h1).2.2.2.1
    unfold canSkip
    rw [hdb, hh.1, if_neg (by intro hc; exact hh.2 (List.eq_nil_of_length_eq_zero hc)), if_neg (by simp)]
    rfl

/-- The hypotheses of `C49_blocked_violated` can be met: the attacker's certificate for another domain has the owner's text as its public key (in this environment the hash tells the two texts apart by their length). -/
example : ∃ (E : Env Bytes Bytes) (owner evil : Cert) (req req' : Fields) (x : Bytes), signAsOwner E owner [1, 2, 3] req = some req' ∧ E.enc { owner with spcts := [], issuerSignature := none } = some x ∧
    (E.H x).length = 32 ∧ req'.ownerSignature.getD [] ≠ [] ∧ evil.publicKey = some x ∧ computeHashAsSigner E evil ≠ some (E.H x) := by
  let owner := certFromRequest (exFields (asc "example.com") 1)
  let x : Bytes := 0x7b :: exists_enc.choose owner.norm
  let E : Env Bytes Bytes := { exEnv with H := fun y => List.replicate 32 (if y = x then 0 else 1) }
  let evil := certFromRequest { exFields (asc "evil.org") 1 with publicKey := some x }
  refine ⟨E, owner, evil, exFields (asc "a.example.com") 2, _, x, rfl, rfl, by simp [E], by simp, rfl, ?_⟩
  have hne : (0x7b :: exists_enc.choose evil.norm : Bytes) ≠ x := by
    intro h
    have := exists_enc.choose_spec (List.cons.inj h).2
    have := congrArg (fun c : Cert => c.domain) this
    revert this
    show fixUtf8 (asc "evil.org") ≠ fixUtf8 (asc "example.com")
    decide +kernel
  show some (List.replicate 32 (if (0x7b :: exists_enc.choose evil.norm : Bytes) = x then 0 else 1)) ≠ some (List.replicate 32 (if x = x then 0 else 1))
  rw [if_neg hne, if_pos rfl]
  decide

end Fpki.Pca
