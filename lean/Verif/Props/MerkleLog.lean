import Verif.Lemmas.MerkleHonest
import Verif.Props.LogVerifier
/-! # C106, C107: what the proofs of the policy log prove -/
namespace Fpki.MerkleLog

open Fpki.LogVerifier (Outcome Res)

variable (H : Bytes → Bytes)

theorem inj_of {xs : List Bytes} (h : ¬ Collision H xs) : ∀ x y, x ∈ xs → y ∈ xs → H x = H y → x = y := by
  intro x y hx hy he
  refine Decidable.byContradiction fun hne => h ⟨x, hx, y, hy, hne, he⟩

theorem leaves_32 (hH : ∀ x, (H x).length = 32) (entries : List Bytes) : ∀ x ∈ entries.map (hashLeaf H), x.length = 32 := by
  intro x hx
  obtain ⟨d, _, rfl⟩ := List.mem_map.1 hx
  exact hH _

theorem inclusion_climb {index size : Nat} {leaf root : Bytes} {proof : List Bytes} : verifyInclusion H index size leaf proof root = .ok ↔
    index < size ∧ leaf.length = 32 ∧ climb H index (size - 1) leaf proof = some root := by
  unfold verifyInclusion rootFromInclusionProof decompInclProof innerProofSize
  by_cases h1 : index ≥ size
  · rw [if_pos h1]
    constructor
    · intro h; cases h
    · rintro ⟨h, _⟩; omega
  · rw [if_neg h1]
    by_cases h2 : leaf.length ≠ 32
    · rw [if_pos h2]
      constructor
      · intro h; cases h
      · rintro ⟨_, h, _⟩; exact absurd h h2
    · rw [if_neg h2]
      have hc := climb_eq H (size - 1) index leaf proof (by omega)
      unfold inner at hc
      rw [← hc]
      dsimp only
      by_cases h3 : proof.length = bitLen (index ^^^ (size - 1)) + onesCount (index >>> bitLen (index ^^^ (size - 1)))
      · rw [if_neg (by rw [Ne, Classical.not_not]; exact h3), if_pos h3]
        simp only [Option.some.injEq]
        constructor
        · intro h
          split at h
          · rename_i hh
            exact ⟨by omega, by omega, hh⟩
          · cases h
        · rintro ⟨_, _, h⟩
          rw [if_pos h]
      · rw [if_pos h3, if_neg h3]
        simp

theorem inclusion_len {index size : Nat} {leaf root : Bytes} {proof : List Bytes} (h : verifyInclusion H index size leaf proof root = .ok) :
    proof.length = inner index (size - 1) + onesCount (index >>> inner index (size - 1)) := by
  obtain ⟨h1, h2, hc⟩ := (inclusion_climb H).1 h
  rw [← climb_eq H (size - 1) index leaf proof (by omega)] at hc
  split at hc
  · assumption
  · cases hc

/-- One proof. -/
theorem inclusion_sound (hH : ∀ x, (H x).length = 32) (entries : List Bytes) (index : Nat) (leaf : Bytes) (proof : List Bytes)
    (h : verifyInclusion H index entries.length leaf proof (mth H (entries.map (hashLeaf H))) = .ok) :
    (entries[index]?).map (hashLeaf H) = some leaf ∨ Collision H (logInputs H entries ++ inclusionInputs H index entries.length leaf proof) := by
  refine (Classical.em (Collision H (logInputs H entries ++ inclusionInputs H index entries.length leaf proof))).elim .inr fun hn => .inl ?_
  obtain ⟨h1, h2, hc⟩ := (inclusion_climb H).1 h
  have := climb_sound H hH (· ∈ logInputs H entries ++ inclusionInputs H index entries.length leaf proof) (inj_of H hn) (entries.length - 1) index leaf proof (entries.map (hashLeaf H))
    (by rw [List.length_map]; omega) (by omega) (leaves_32 H hH entries) h2 (fun x hx => by simp [logInputs, hx])
    (fun x hx => by
      rw [climbInputs_eq H _ _ _ _ (by omega) (inclusion_len H h)] at hx
      exact List.mem_append_right _ hx) hc
  rwa [List.getElem?_map] at this

/-- C106: a leaf that `VerifyInclusionByHash` accepts for the root of a log is the hash of an entry of that log, at the index of one of the proofs; otherwise two strings that were hashed
for the root or during the verification have the same hash. -/
theorem C106_inclusion (hH : ∀ x, (H x).length = 32) (entries : List Bytes) (r : Root) (hr : RootOf H entries r) (leaf : Bytes) (proofs : List (Option Proof))
    (h : verifyInclusionByHash H r leaf proofs = .accepted) :
    ∃ p, some p ∈ proofs ∧ ((entries[(p.leafIndex % 2 ^ 64).toNat]?).map (hashLeaf H) = some leaf ∨
      Collision H (logInputs H entries ++ inclusionInputs H (p.leafIndex % 2 ^ 64).toNat entries.length leaf p.hashes)) := by
  obtain ⟨pre, p, post, hps, hok, _⟩ := (LogVerifier.C51_accepted_iff (inclOf H) r leaf proofs).1 h
  refine ⟨p, by rw [hps]; simp, ?_⟩
  unfold inclOf at hok
  rw [hr.1, hr.2] at hok
  exact inclusion_sound H hH entries _ leaf p.hashes hok

/-- C106 for an entry: if the hash of `d` is accepted, `d` is an entry of the log. -/
theorem C106_entry (hH : ∀ x, (H x).length = 32) (entries : List Bytes) (r : Root) (hr : RootOf H entries r) (d : Bytes) (proofs : List (Option Proof))
    (h : verifyInclusionByHash H r (hashLeaf H d) proofs = .accepted) :
    d ∈ entries ∨ ∃ p, some p ∈ proofs ∧
      Collision H ((0x00 :: d) :: (logInputs H entries ++ inclusionInputs H (p.leafIndex % 2 ^ 64).toNat entries.length (hashLeaf H d) p.hashes)) := by
  obtain ⟨p, hp, hh⟩ := C106_inclusion H hH entries r hr (hashLeaf H d) proofs h
  rcases hh with hh | ⟨x, hx, y, hy, hne, he⟩
  · rw [Option.map_eq_some_iff] at hh
    obtain ⟨e, he, hhe⟩ := hh
    have hmem := List.mem_of_getElem? he
    by_cases hed : e = d
    · subst hed
      exact .inl hmem
    · refine .inr ⟨p, hp, 0x00 :: e, ?_, 0x00 :: d, by simp, by simp [hed], hhe⟩
      simp [logInputs, hmem]
  · exact .inr ⟨p, hp, x, List.mem_cons_of_mem _ hx, y, List.mem_cons_of_mem _ hy, hne, he⟩

/-- C106: the audit path of RFC 6962 is accepted, for every entry of every log, whatever proofs follow. -/
theorem C106_honest (hH : ∀ x, (H x).length = 32) (entries : List Bytes) (r : Root) (hr : RootOf H entries r) (hs : entries.length ≤ 2 ^ 64) (i : Nat) (d : Bytes) (hi : entries[i]? = some d)
    (rest : List (Option Proof)) : verifyInclusionByHash H r (hashLeaf H d) (some ⟨i, auditPath H i (entries.map (hashLeaf H))⟩ :: rest) = .accepted := by
  have hlt : i < entries.length := (List.getElem?_eq_some_iff.1 hi).1
  have hidx : ((i : Int) % 2 ^ 64).toNat = i := by omega
  have hok : inclOf H r (hashLeaf H d) ⟨i, auditPath H i (entries.map (hashLeaf H))⟩ = .ok := by
    unfold inclOf
    rw [hidx, hr.1, hr.2, inclusion_climb]
    refine ⟨hlt, hH _, climb_honest H _ _ _ _ (by rw [List.length_map]; omega) ?_⟩
    rw [List.getElem?_map, hi]
    rfl
  unfold verifyInclusionByHash LogVerifier.verifyInclusionByHash
  rw [hok]

/-! ## Consistency -/

/-- `VerifyConsistency` level by level, between a smaller and a larger tree. -/
theorem consistency_climb {size1 size2 : Nat} (h1 : size1 ≠ 0) (h2 : size1 < size2) {proof : List Bytes} {root1 root2 : Bytes} :
    verifyConsistency H size1 size2 proof root1 root2 = true ↔ proof ≠ [] ∧ ∃ seed rest, (if (size1 - 1) >>> trailingZeros size1 = 0 then seed = root1 ∧ proof = rest else proof = seed :: rest) ∧
      climbR H ((size1 - 1) >>> trailingZeros size1) ((size2 - 1) >>> trailingZeros size1) seed rest = some root1 ∧
      climb H ((size1 - 1) >>> trailingZeros size1) ((size2 - 1) >>> trailingZeros size1) seed rest = some root2 := by
  have hlt := mask_lt h1 h2
  have hz := mask_zero h1
  have hin := inner_shift (trailingZeros size1) (size1 - 1) (size2 - 1)
  have hpos := inner_pos (i := (size1 - 1) >>> trailingZeros size1) (last := (size2 - 1) >>> trailingZeros size1) (by omega)
  have hbord : (size1 - 1) >>> inner (size1 - 1) (size2 - 1) = ((size1 - 1) >>> trailingZeros size1) >>> inner ((size1 - 1) >>> trailingZeros size1) ((size2 - 1) >>> trailingZeros size1) := by
    rw [← Nat.shiftRight_add, hin]
    congr 1
    omega
  unfold verifyConsistency
  rw [if_neg (by omega), if_neg (by omega), if_neg h1]
  cases proof with
  | nil => simp
  | cons first tail =>
    unfold decompInclProof innerProofSize
    dsimp only
    have hfold : bitLen ((size1 - 1) ^^^ (size2 - 1)) = inner (size1 - 1) (size2 - 1) := rfl
    rw [hfold, hbord, ← hin]
    have key : ∀ (seed : Bytes) (rest : List Bytes) (n : Nat), n + rest.length = (first :: tail).length →
        (((if (first :: tail).length ≠ n + inner ((size1 - 1) >>> trailingZeros size1) ((size2 - 1) >>> trailingZeros size1) +
              onesCount (((size1 - 1) >>> trailingZeros size1) >>> inner ((size1 - 1) >>> trailingZeros size1) ((size2 - 1) >>> trailingZeros size1)) then false
          else
            chainBorderRight H (chainInnerRight H seed (rest.take (inner ((size1 - 1) >>> trailingZeros size1) ((size2 - 1) >>> trailingZeros size1))) ((size1 - 1) >>> trailingZeros size1))
                (rest.drop (inner ((size1 - 1) >>> trailingZeros size1) ((size2 - 1) >>> trailingZeros size1))) == root1 &&
              chainBorderRight H (chainInner H seed (rest.take (inner ((size1 - 1) >>> trailingZeros size1) ((size2 - 1) >>> trailingZeros size1))) ((size1 - 1) >>> trailingZeros size1))
                (rest.drop (inner ((size1 - 1) >>> trailingZeros size1) ((size2 - 1) >>> trailingZeros size1))) == root2) = true) ↔
        (climbR H ((size1 - 1) >>> trailingZeros size1) ((size2 - 1) >>> trailingZeros size1) seed rest = some root1 ∧
          climb H ((size1 - 1) >>> trailingZeros size1) ((size2 - 1) >>> trailingZeros size1) seed rest = some root2)) := by
      intro seed rest n hn
      rw [← climb_eq H _ _ seed rest (by omega), ← climbR_eq H _ _ seed rest (by omega)]
      generalize (size1 - 1) >>> trailingZeros size1 = i at *
      generalize (size2 - 1) >>> trailingZeros size1 = last at *
      by_cases hl : rest.length = inner i last + onesCount (i >>> inner i last)
      · rw [if_neg (by omega), if_pos hl, if_pos hl]
        simp [Bool.and_eq_true]
      · rw [if_pos (by omega), if_neg hl, if_neg hl]
        simp
    by_cases hp : size1 = 1 <<< trailingZeros size1
    · rw [if_pos hp]
      dsimp only
      rw [List.drop_zero, key root1 (first :: tail) 0 (by omega)]
      simp only [if_pos (hz.1 hp)]
      constructor
      · rintro ⟨h3, h4⟩
        exact ⟨by simp, root1, first :: tail, ⟨rfl, rfl⟩, h3, h4⟩
      · rintro ⟨_, seed, rest, ⟨rfl, rfl⟩, h3, h4⟩
        exact ⟨h3, h4⟩
    · rw [if_neg hp]
      dsimp only
      rw [show (first :: tail).drop 1 = tail from rfl, key first tail 1 (by rw [List.length_cons]; omega)]
      simp only [if_neg (fun h => hp (hz.2 h))]
      constructor
      · rintro ⟨h3, h4⟩
        exact ⟨by simp, first, tail, rfl, h3, h4⟩
      · rintro ⟨_, seed, rest, he, h3, h4⟩
        cases he
        exact ⟨h3, h4⟩

theorem climb_len {i last : Nat} {h r : Bytes} {ps : List Bytes} (hi : i ≤ last) (hc : climb H i last h ps = some r) : ps.length = inner i last + onesCount (i >>> inner i last) := by
  rw [← climb_eq H last i h ps hi] at hc
  split at hc
  · assumption
  · cases hc

theorem consistency_sound (hH : ∀ x, (H x).length = 32) (P : Bytes → Prop) (inj : ∀ x y, P x → P y → H x = H y → x = y) (l1 l2 proof : List Bytes)
    (h321 : ∀ x ∈ l1, x.length = 32) (h322 : ∀ x ∈ l2, x.length = 32) (hp1 : ∀ x ∈ inputs H l1, P x) (hp2 : ∀ x ∈ inputs H l2, P x)
    (hq : ∀ x ∈ consistencyInputs H l1.length l2.length proof (mth H l1), P x)
    (h : verifyConsistency H l1.length l2.length proof (mth H l1) (mth H l2) = true) : l1 = l2.take l1.length := by
  by_cases hgt : l2.length < l1.length
  · unfold verifyConsistency at h
    rw [if_pos hgt] at h
    cases h
  by_cases heq : l1.length = l2.length
  · unfold verifyConsistency at h
    rw [if_neg hgt, if_pos heq, Bool.and_eq_true, beq_iff_eq] at h
    rw [heq, List.take_length]
    exact mth_inj H hH inj _ l1 l2 heq rfl h321 h322 hp1 hp2 h.2
  by_cases h0 : l1.length = 0
  · rw [h0, List.take_zero]
    exact List.length_eq_zero_iff.1 h0
  have hlt : l1.length < l2.length := by omega
  obtain ⟨hne, seed, rest, hsr, hr, hc⟩ := (consistency_climb H h0 hlt).1 h
  have hml := mask_lt h0 hlt
  obtain ⟨hsz, hev⟩ := mask_spec h0
  have hz := mask_zero h0
  have hin := inner_shift (trailingZeros l1.length) (l1.length - 1) (l2.length - 1)
  have hlen := climb_len H (by omega) hc
  have hin1 : ∀ x ∈ climbInputs H ((l1.length - 1) >>> trailingZeros l1.length) ((l2.length - 1) >>> trailingZeros l1.length) seed rest, P x := by
    intro x hx
    apply hq
    rw [climbInputs_eq H _ _ _ _ (by omega) hlen] at hx
    have hfold : innerProofSize (l1.length - 1) l2.length - trailingZeros l1.length = inner ((l1.length - 1) >>> trailingZeros l1.length) ((l2.length - 1) >>> trailingZeros l1.length) := hin.symm
    unfold consistencyInputs
    dsimp only
    rw [hfold]
    by_cases hm : (l1.length - 1) >>> trailingZeros l1.length = 0
    · rw [if_pos hm] at hsr
      rw [if_pos (hz.2 hm), if_pos (hz.2 hm), ← hsr.1, hsr.2]
      exact List.mem_append_right _ hx
    · rw [if_neg hm] at hsr
      rw [if_neg (fun hh => hm (hz.1 hh)), if_neg (fun hh => hm (hz.1 hh)), hsr]
      exact List.mem_append_right _ hx
  have hin2 : ∀ x ∈ climbRInputs H ((l1.length - 1) >>> trailingZeros l1.length) ((l2.length - 1) >>> trailingZeros l1.length) seed rest, P x := by
    intro x hx
    apply hq
    rw [climbRInputs_eq H _ _ _ _ (by omega) hlen] at hx
    have hfold : innerProofSize (l1.length - 1) l2.length - trailingZeros l1.length = inner ((l1.length - 1) >>> trailingZeros l1.length) ((l2.length - 1) >>> trailingZeros l1.length) := hin.symm
    unfold consistencyInputs
    dsimp only
    rw [hfold]
    by_cases hm : (l1.length - 1) >>> trailingZeros l1.length = 0
    · rw [if_pos hm] at hsr
      rw [if_pos (hz.2 hm), if_pos (hz.2 hm), ← hsr.1, hsr.2]
      exact List.mem_append_left _ hx
    · rw [if_neg hm] at hsr
      rw [if_neg (fun hh => hm (hz.1 hh)), if_neg (fun hh => hm (hz.1 hh)), hsr]
      exact List.mem_append_left _ hx
  clear hq h hz hin hlen hsr
  have n1 : l1 ≠ [] := fun hh => h0 (by rw [hh]; rfl)
  have n2 : l2 ≠ [] := fun hh => by rw [hh] at hlt; simp at hlt
  have u1 := up_length H (trailingZeros l1.length) l1 n1
  have u2 := up_length H (trailingZeros l1.length) l2 n2
  rw [← Nat.shiftRight_eq_div_pow] at u1 u2
  obtain ⟨g2, g1, gt⟩ := climb_both H hH P inj _ _ seed seed rest (up H (trailingZeros l1.length) l1) (up H (trailingZeros l1.length) l2) u2 u1 (by omega)
    (up_32 H hH _ l1 h321) (up_32 H hH _ l2 h322) (.inr ⟨hev, by omega, rfl⟩) (fun x hx => hp1 x (up_inputs H _ _ x hx)) (fun x hx => hp2 x (up_inputs H _ _ x hx)) hin1 hin2
    (by rw [up_mth]; exact hc) (by rw [up_mth]; exact hr)
  have := up_take_inj H hH inj (trailingZeros l1.length) l1 l2 ((l1.length - 1) >>> trailingZeros l1.length + 1) (by rw [← hsz]; omega) (by rw [← hsz]; omega) h321 h322 hp1 hp2
    (by rw [List.take_add_one, List.take_add_one, gt, g1, g2])
  rw [← hsz, List.take_length] at this
  exact this

/-- C107: if `VerifyRoot` accepts the root of a log after the root of another, the entries of the older log are the first entries of the newer one, or two of the strings that were hashed
have the same hash; the root returned is the new one. -/
theorem C107_prefix (hH : ∀ x, (H x).length = 32) (old new : List Bytes) (t n r : Root) (ht : RootOf H old t) (hn : RootOf H new n) (c : List Bytes)
    (h : verifyRoot H (some t) (some n) c = some r) :
    r = n ∧ (old <+: new ∨ Collision H (logInputs H old ++ logInputs H new ++ consistencyInputs H old.length new.length c (mth H (old.map (hashLeaf H))))) := by
  unfold verifyRoot LogVerifier.verifyRoot at h
  dsimp only at h
  rw [ht.1] at h
  by_cases h0 : old.length = 0
  · rw [if_neg (by omega)] at h
    cases h
    rw [List.length_eq_zero_iff.1 h0]
    exact ⟨rfl, .inl (List.nil_prefix)⟩
  · rw [if_pos h0] at h
    split at h
    · rename_i hc
      cases h
      refine ⟨rfl, (Classical.em (Collision H (logInputs H old ++ logInputs H new ++ consistencyInputs H old.length new.length c (mth H (old.map (hashLeaf H)))))).elim .inr fun hno => .inl ?_⟩
      unfold consOf at hc
      rw [ht.1, ht.2, hn.1, hn.2] at hc
      have hinj := inj_of H hno
      have := consistency_sound H hH _ hinj (old.map (hashLeaf H)) (new.map (hashLeaf H)) c (leaves_32 H hH old) (leaves_32 H hH new)
        (fun x hx => by simp [logInputs, hx]) (fun x hx => by simp [logInputs, hx]) (fun x hx => by simp only [List.length_map] at hx; exact List.mem_append_right _ hx)
        (by rw [List.length_map, List.length_map]; exact hc)
      rw [List.length_map, ← List.map_take] at this
      have leafInj : ∀ (a b : List Bytes), (∀ d ∈ a, d ∈ old) → (∀ d ∈ b, d ∈ new) → a.map (hashLeaf H) = b.map (hashLeaf H) → a = b := by
        intro a
        induction a with
        | nil =>
          intro b _ _ hab
          cases b with
          | nil => rfl
          | cons _ _ => simp at hab
        | cons x a ih =>
          intro b ha hb hab
          cases b with
          | nil => simp at hab
          | cons y b =>
            simp only [List.map_cons, List.cons.injEq] at hab
            have hxy := hinj (0x00 :: x) (0x00 :: y) (by simp [logInputs, ha x]) (by simp [logInputs, hb y]) hab.1
            rw [ih b (fun d hd => ha d (by simp [hd])) (fun d hd => hb d (by simp [hd])) hab.2]
            simpa using hxy
      rw [leafInj old (new.take old.length) (fun d hd => hd) (fun d hd => List.mem_of_mem_take hd) this]
      exact List.take_prefix _ _
    · cases h

/-- C107: a log that lost entries is refused, whatever the proof. -/
theorem C107_shrunk (t n : Root) (c : List Bytes) (h : n.size < t.size) : verifyRoot H (some t) (some n) c = none := by
  unfold verifyRoot LogVerifier.verifyRoot consOf verifyConsistency
  dsimp only
  rw [if_pos (by omega), if_pos h]
  rfl

/-- C107 and C106 together: what `VerifyInclusionWithPrevLogRoot` accepts is an entry of the old log and, at the same index, of the new one. -/
theorem C107_with_previous_root (hH : ∀ x, (H x).length = 32) (old new : List Bytes) (t n : Root) (ht : RootOf H old t) (hn : RootOf H new n) (c : List Bytes) (leaf : Bytes)
    (proofs : List (Option Proof)) (h : verifyInclusionWithPrevLogRoot H (some t) (some n) c leaf proofs = .accepted) :
    (∃ (i : Nat) (d : Bytes), old[i]? = some d ∧ new[i]? = some d ∧ hashLeaf H d = leaf) ∨
    (∃ p, some p ∈ proofs ∧ Collision H (logInputs H old ++ inclusionInputs H (p.leafIndex % 2 ^ 64).toNat old.length leaf p.hashes)) ∨
    Collision H (logInputs H old ++ logInputs H new ++ consistencyInputs H old.length new.length c (mth H (old.map (hashLeaf H)))) := by
  unfold verifyInclusionWithPrevLogRoot LogVerifier.verifyInclusionWithPrevLogRoot at h
  dsimp only at h
  cases hv : LogVerifier.verifyInclusionByHash (inclOf H) t leaf proofs with
  | refused => rw [hv] at h; cases h
  | panicked => rw [hv] at h; cases h
  | accepted =>
    rw [hv] at h
    dsimp only at h
    cases hr : LogVerifier.verifyRoot Root.size (consOf H) (some t) (some n) c with
    | none => rw [hr] at h; cases h
    | some r =>
      obtain ⟨p, hp, hh⟩ := C106_inclusion H hH old t ht leaf proofs hv
      obtain ⟨_, hpre⟩ := C107_prefix H hH old new t n r ht hn c hr
      rcases hh with hh | hh
      · rcases hpre with hpre | hpre
        · rw [Option.map_eq_some_iff] at hh
          obtain ⟨d, hd, hhd⟩ := hh
          refine .inl ⟨_, d, hd, ?_, hhd⟩
          obtain ⟨s, rfl⟩ := hpre
          rw [List.getElem?_append_left (List.getElem?_eq_some_iff.1 hd).1]
          exact hd
        · exact .inr (.inr hpre)
      · exact .inr (.inl ⟨p, hp, hh⟩)

/-- C107: the consistency proof of RFC 6962 is accepted, for every log and every later state of it; between equal logs it is empty. -/
theorem C107_honest (old new : List Bytes) (h0 : old ≠ []) (hpre : old <+: new) (t n : Root) (ht : RootOf H old t) (hn : RootOf H new n) :
    verifyRoot H (some t) (some n) (subProof H old.length true (new.map (hashLeaf H))) = some n := by
  have hlen : old.length ≠ 0 := fun h => h0 (List.length_eq_zero_iff.1 h)
  unfold verifyRoot LogVerifier.verifyRoot consOf
  dsimp only
  rw [ht.1, if_pos hlen, if_pos]
  rw [ht.2, hn.1, hn.2]
  obtain ⟨s, rfl⟩ := hpre
  by_cases hs : s = []
  · subst hs
    rw [List.append_nil]
    have hsub : subProof H old.length true (old.map (hashLeaf H)) = [] := by
      cases old with
      | nil => exact absurd rfl h0
      | cons x old =>
        cases old with
        | nil => simp [subProof]
        | cons y old =>
          rw [subProof_cons H _ _ (by simp), if_pos (by simp)]
          rfl
    rw [hsub]
    unfold verifyConsistency
    rw [if_neg (by omega), if_pos rfl]
    simp
  · have hspos : s.length ≠ 0 := fun h => hs (List.length_eq_zero_iff.1 h)
    have hlt : old.length < (old ++ s).length := by rw [List.length_append]; omega
    rw [consistency_climb H hlen hlt]
    have hmap : (old ++ s).map (hashLeaf H) = (old ++ s).map (hashLeaf H) := rfl
    have htake : ((old ++ s).map (hashLeaf H)).take old.length = old.map (hashLeaf H) := by rw [← List.map_take, List.take_left]
    have hl : ((old ++ s).map (hashLeaf H)).length = (old ++ s).length := List.length_map _
    rw [← htake]
    generalize (old ++ s).map (hashLeaf H) = l at *
    rw [← hl] at hlt ⊢
    clear hl htake ht hn hs hspos hmap
    generalize old.length = m at *
    obtain ⟨hsz, hev⟩ := mask_spec hlen
    have hml := mask_lt hlen hlt
    have hul := up_length H (trailingZeros m) l (fun hh => by rw [hh] at hlt; simp at hlt)
    rw [← Nat.shiftRight_eq_div_pow] at hul
    have hsub := subProof_up H (trailingZeros m) l ((m - 1) >>> trailingZeros m + 1) true (Nat.succ_pos _) (by rw [← hsz]; omega)
    have hut := up_take H (trailingZeros m) l ((m - 1) >>> trailingZeros m + 1) (by rw [← hsz]; omega)
    have hum := up_mth H (trailingZeros m) (l.take m)
    have hum2 := up_mth H (trailingZeros m) l
    rw [← hsz] at hsub hut
    rw [hut] at hum
    rw [← hum, ← hum2, hsub]
    generalize up H (trailingZeros m) l = u at *
    generalize (m - 1) >>> trailingZeros m = i at *
    generalize (l.length - 1) >>> trailingZeros m = last at *
    obtain ⟨x, hx⟩ := get_some (l := u) (i := i) (by omega)
    rw [subProof_odd H u (i + 1) true x (by omega) (by omega) (by rw [Nat.add_sub_cancel]; exact hx), Nat.add_sub_cancel]
    have hR := climbR_honest H last i u x hul (by omega)
    have hC := climb_honest H last i u x hul hx
    have htk : u.take (i + 1) = u.take i ++ [x] := by rw [List.take_add_one, hx]; rfl
    rw [htk]
    have hnn : auditPath H i u ≠ [] := by
      rw [auditPath_level H u i (by omega)]
      obtain ⟨b, hb⟩ := get_some (l := u) (i := i + 1) (by omega)
      unfold sib
      rw [if_neg (by omega), hb]
      simp
    by_cases hi : i = 0
    · refine ⟨by rw [hi] at hnn ⊢; simp [hnn], x, auditPath H i u, ?_, hR, hC⟩
      rw [if_pos hi, hi]
      simp [mth]
    · refine ⟨by simp [hi], x, auditPath H i u, ?_, hR, hC⟩
      rw [if_neg hi, if_neg (by omega)]
      rfl

/-! ## Concrete cases -/

/-- A toy hash with 32 bytes: a weighted sum, then the first bytes of the string. -/
def toy (x : Bytes) : Bytes := ((x.foldl (fun a b => 31 * a + b) 7) :: (x ++ List.replicate 32 0)).take 32

theorem toy_32 (x : Bytes) : (toy x).length = 32 := by
  unfold toy
  rw [List.length_take, List.length_cons, List.length_append, List.length_replicate]
  omega

/-- A log with five entries. -/
def toyLog : List Bytes := [[1], [2], [3, 4], [5], [6]]

/-- Its root after `n` entries. -/
def toyRoot (n : Nat) : Root := ⟨n, mth toy ((toyLog.take n).map (hashLeaf toy))⟩

example : RootOf toy toyLog (toyRoot 5) ∧ RootOf toy (toyLog.take 3) (toyRoot 3) := ⟨⟨rfl, rfl⟩, ⟨rfl, rfl⟩⟩

/-- Entry 4 of five and entry 2 of five, each with its own path; not with the other path, nor another entry with the same path. No two strings collide. -/
example : verifyInclusionByHash toy (toyRoot 5) (hashLeaf toy [6]) [some ⟨4, auditPath toy 4 (toyLog.map (hashLeaf toy))⟩] = .accepted ∧
    verifyInclusionByHash toy (toyRoot 5) (hashLeaf toy [3, 4]) [some ⟨2, auditPath toy 2 (toyLog.map (hashLeaf toy))⟩] = .accepted ∧
    verifyInclusionByHash toy (toyRoot 5) (hashLeaf toy [3, 4]) [some ⟨3, auditPath toy 2 (toyLog.map (hashLeaf toy))⟩] = .refused ∧
    verifyInclusionByHash toy (toyRoot 5) (hashLeaf toy [8]) [some ⟨2, auditPath toy 2 (toyLog.map (hashLeaf toy))⟩] = .refused ∧
    (∀ x ∈ logInputs toy toyLog ++ inclusionInputs toy 2 5 (hashLeaf toy [3, 4]) (auditPath toy 2 (toyLog.map (hashLeaf toy))),
      ∀ y ∈ logInputs toy toyLog ++ inclusionInputs toy 2 5 (hashLeaf toy [3, 4]) (auditPath toy 2 (toyLog.map (hashLeaf toy))), toy x = toy y → x = y) := by
  decide +kernel

/-- From three entries to five, and from four to five; not from another log with three entries. No two strings collide. -/
example : verifyRoot toy (some (toyRoot 3)) (some (toyRoot 5)) (subProof toy 3 true (toyLog.map (hashLeaf toy))) = some (toyRoot 5) ∧
    verifyRoot toy (some (toyRoot 4)) (some (toyRoot 5)) (subProof toy 4 true (toyLog.map (hashLeaf toy))) = some (toyRoot 5) ∧
    verifyRoot toy (some ⟨3, mth toy ([[1], [2], [3]].map (hashLeaf toy))⟩) (some (toyRoot 5)) (subProof toy 3 true (toyLog.map (hashLeaf toy))) = none ∧
    verifyRoot toy (some (toyRoot 3)) (some (toyRoot 5)) [] = none ∧
    verifyInclusionWithPrevLogRoot toy (some (toyRoot 3)) (some (toyRoot 5)) (subProof toy 3 true (toyLog.map (hashLeaf toy))) (hashLeaf toy [2])
      [some ⟨1, auditPath toy 1 ((toyLog.take 3).map (hashLeaf toy))⟩] = .accepted ∧
    (let xs := logInputs toy (toyLog.take 3) ++ logInputs toy toyLog ++ consistencyInputs toy 3 5 (subProof toy 3 true (toyLog.map (hashLeaf toy))) (toyRoot 3).hash
     ∀ x ∈ xs, ∀ y ∈ xs, toy x = toy y → x = y) := by
  decide +kernel

end Fpki.MerkleLog
