import Verif.Props.Db
import Verif.Lemmas.Bytes
import Mathlib.Data.List.Nodup
import Mathlib.Logic.Relation
import Mathlib.Tactic.Linarith

/-!
# C21: pruning expired certificates; C22: the payload of a domain after coalescing
-/
namespace Fpki.Db

/-! ## Tables -/

theorem mem_replaceInto_iff {κ : Type} [BEq κ] [LawfulBEq κ] (key : α → κ) : ∀ (rows t : List α) (r : α),
    (∀ a ∈ rows, ∀ b ∈ rows, key a = key b → a = b) →
    (r ∈ replaceInto key t rows ↔ r ∈ rows ∨ (r ∈ t ∧ ∀ x ∈ rows, key x ≠ key r)) := by
  intro rows
  induction rows with
  | nil => intro t r _; simp [replaceInto]
  | cons r0 rows ih =>
    intro t r hn
    have unf : replaceInto key t (r0 :: rows) = replaceInto key (t.filter (fun x => !(key x == key r0)) ++ [r0]) rows := rfl
    rw [unf, ih _ _ (fun a ha b hb => hn a (List.mem_cons_of_mem _ ha) b (List.mem_cons_of_mem _ hb))]
    simp only [List.mem_append, List.mem_filter, Bool.not_eq_true', beq_eq_false_iff_ne, List.mem_singleton]
    rw [List.forall_mem_cons, List.mem_cons]
    constructor
    · rintro (h | ⟨⟨h1, h2⟩ | h, h3⟩)
      · exact Or.inl (Or.inr h)
      · exact Or.inr ⟨h1, fun e => h2 e.symm, h3⟩
      · exact Or.inl (Or.inl h)
    · rintro ((h | h) | ⟨h1, h2, h3⟩)
      · subst h
        by_cases hm : r ∈ rows
        · exact Or.inl hm
        · refine Or.inr ⟨Or.inr rfl, fun x hx e => hm ?_⟩
          rw [← hn x (List.mem_cons_of_mem _ hx) r List.mem_cons_self e]
          exact hx
      · exact Or.inl h
      · exact Or.inr ⟨Or.inl ⟨h1, fun e => h2 e.symm⟩, h3⟩

/-! ## C21 -/

/-- The certificates that must go: those that expire before `cut` and those that chain to one of them. -/
inductive InExpired (certs : List Cert) (cut : Nat) : Bytes → Prop where
  | expired (c : Cert) : c ∈ certs → c.expiration < cut → InExpired certs cut c.id
  | child (c : Cert) : c ∈ certs → InExpired certs cut c.parent → InExpired certs cut c.id

/-- Parent links have no cycle. -/
def Acyclic (certs : List Cert) : Prop := ∃ rank : Bytes → Nat, ∀ c ∈ certs, rank c.parent < rank c.id

/-- The domain `d` is linked to a certificate that must go. -/
def LosesCert (db : DB) (cut : Nat) (d : Bytes) : Prop := ∃ i, (d, i) ∈ db.domainCerts ∧ InExpired db.certs cut i

theorem mem_children (certs : List Cert) (work : List Bytes) (i : Bytes) :
    i ∈ work.flatMap (fun w => (certs.filter (fun c => c.parent == w)).map Cert.id) ↔ ∃ c ∈ certs, c.parent ∈ work ∧ c.id = i := by
  rw [List.mem_flatMap]
  constructor
  · rintro ⟨w, hw, h⟩
    obtain ⟨c, hc, rfl⟩ := List.mem_map.1 h
    obtain ⟨h1, h2⟩ := List.mem_filter.1 hc
    exact ⟨c, h1, by rw [beq_iff_eq.1 h2]; exact hw, rfl⟩
  · rintro ⟨c, h1, h2, rfl⟩
    exact ⟨c.parent, h2, List.mem_map.2 ⟨c, List.mem_filter.2 ⟨h1, by simp⟩, rfl⟩⟩

theorem expiredLoop_spec (certs : List Cert) (P : Bytes → Prop) (hP : ∀ c ∈ certs, P c.parent → P c.id) (rank : Bytes → Nat)
    (hr : ∀ c ∈ certs, rank c.parent < rank c.id) (M : Nat) (hM : ∀ c ∈ certs, rank c.id ≤ M) : ∀ (fuel : Nat) (res work : List Bytes) (k : Nat),
    M < fuel + k → (∀ w ∈ work, k ≤ rank w) → 0 < fuel → (∀ i ∈ res, P i) → (∀ w ∈ work, w ∈ res) →
    (∀ c ∈ certs, c.parent ∈ res → c.parent ∈ work ∨ c.id ∈ res) →
    ∃ out, expiredLoop certs fuel res work = some out ∧ (∀ i ∈ out, P i) ∧ (∀ i ∈ res, i ∈ out) ∧ (∀ c ∈ certs, c.parent ∈ out → c.id ∈ out) := by
  intro fuel
  induction fuel with
  | zero => intro res work k _ _ h0; omega
  | succ fuel ih =>
    intro res work k hf hk _ hres hw hcl
    unfold expiredLoop
    dsimp only
    by_cases hn : work.flatMap (fun w => (certs.filter (fun c => c.parent == w)).map Cert.id) = []
    · rw [if_pos hn]
      refine ⟨res, rfl, hres, fun i h => h, fun c hc hp => ?_⟩
      rcases hcl c hc hp with h | h
      · have := (mem_children certs work c.id).2 ⟨c, hc, h, rfl⟩
        rw [hn] at this
        cases this
      · exact h
    · rw [if_neg hn]
      obtain ⟨i, hi⟩ := List.exists_mem_of_ne_nil _ hn
      obtain ⟨c, hc, hcw, rfl⟩ := (mem_children certs work i).1 hi
      have h1 := hk _ hcw
      have h2 := hr c hc
      have h3 := hM c hc
      obtain ⟨out, ho, hp, hsub, hcl'⟩ := ih (res ++ work.flatMap (fun w => (certs.filter (fun c => c.parent == w)).map Cert.id)) (work.flatMap (fun w => (certs.filter (fun c => c.parent == w)).map Cert.id)) (k + 1) (by omega) (by
          intro w hw'
          obtain ⟨c', hc', hcw', rfl⟩ := (mem_children certs work w).1 hw'
          have := hk _ hcw'
          have := hr c' hc'
          omega) (by omega) (by
          intro j hj
          rcases List.mem_append.1 hj with hj | hj
          · exact hres j hj
          · obtain ⟨c', hc', hcw', rfl⟩ := (mem_children certs work j).1 hj
            exact hP c' hc' (hres _ (hw _ hcw'))) (fun w hw' => List.mem_append_right _ hw') (by
          intro c' hc' hp'
          rcases List.mem_append.1 hp' with hp' | hp'
          · rcases hcl c' hc' hp' with h | h
            · exact Or.inr (List.mem_append_right _ ((mem_children certs work c'.id).2 ⟨c', hc', h, rfl⟩))
            · exact Or.inr (List.mem_append_left _ h)
          · exact Or.inl hp')
      exact ⟨out, ho, hp, fun j hj => hsub j (List.mem_append_left _ hj), hcl'⟩

theorem exists_bound (f : Cert → Nat) : ∀ l : List Cert, ∃ M, ∀ c ∈ l, f c ≤ M
  | [] => ⟨0, by simp⟩
  | x :: l => by
    obtain ⟨M, h⟩ := exists_bound f l
    refine ⟨max (f x) M, ?_⟩
    intro c hc
    rcases List.mem_cons.1 hc with rfl | hc
    · exact le_max_left _ _
    · exact le_trans (h c hc) (le_max_right _ _)

/-- The IDs the query selects. -/
theorem expired_ids {certs : List Cert} (hac : Acyclic certs) (cut : Nat) : ∃ F, ∀ fuel ≥ F, ∃ ids,
    expiredLoop certs fuel ((certs.filter (fun c => decide (c.expiration < cut))).map Cert.id)
      ((certs.filter (fun c => decide (c.expiration < cut))).map Cert.id) = some ids ∧ ∀ i, i ∈ ids ↔ InExpired certs cut i := by
  obtain ⟨rank, hr⟩ := hac
  obtain ⟨M, hM⟩ := exists_bound (fun c => rank c.id) certs
  refine ⟨M + 1, fun fuel hf => ?_⟩
  obtain ⟨out, h1, h2, h3, h4⟩ := expiredLoop_spec certs (InExpired certs cut) (fun c hc h => InExpired.child c hc h) rank hr M hM fuel
    ((certs.filter (fun c => decide (c.expiration < cut))).map Cert.id) ((certs.filter (fun c => decide (c.expiration < cut))).map Cert.id) 0
    (by omega) (by intros; omega) (by omega) (by
      intro i hi
      obtain ⟨c, hc, rfl⟩ := List.mem_map.1 hi
      obtain ⟨h5, h6⟩ := List.mem_filter.1 hc
      exact InExpired.expired c h5 (by simpa using h6)) (fun w h => h) (fun c _ h => Or.inl h)
  refine ⟨out, h1, fun i => ⟨h2 i, fun h => ?_⟩⟩
  induction h with
  | expired c hc he => exact h3 _ (List.mem_map.2 ⟨c, List.mem_filter.2 ⟨hc, by simpa using he⟩, rfl⟩)
  | child c hc _ ih => exact h4 c hc ih

/-- C21 (partial: parent links have no cycle): pruning ends; it removes exactly the certificates expired before `cut` and those that chain to
one; the domains linked to one of them become dirty; nothing else changes. -/
theorem C21_prune_exact_partial (db : DB) (cut : Nat) (hac : Acyclic db.certs) : ∃ F, ∀ fuel ≥ F, ∃ db', pruneCerts fuel db cut = some db' ∧
    db'.certs.Sublist db.certs ∧ (∀ c, c ∈ db'.certs ↔ c ∈ db.certs ∧ ¬ InExpired db.certs cut c.id) ∧
    (∀ r, r ∈ db'.dirty ↔ (LosesCert db cut r.1 ∧ r.2 = false) ∨ (r ∈ db.dirty ∧ ¬ LosesCert db cut r.1)) ∧
    db'.domains = db.domains ∧ db'.domainCerts = db.domainCerts ∧ db'.policies = db.policies ∧ db'.domainPolicies = db.domainPolicies ∧
    db'.payloads = db.payloads := by
  obtain ⟨F, hF⟩ := expired_ids hac cut
  refine ⟨F, fun fuel hf => ?_⟩
  obtain ⟨ids, h1, h2⟩ := hF fuel hf
  unfold pruneCerts
  dsimp only
  rw [h1]
  refine ⟨_, rfl, List.filter_sublist, ?_, ?_, rfl, rfl, rfl, rfl, rfl⟩
  · intro c
    simp only [List.mem_filter, Bool.not_eq_true', List.contains_eq_mem, decide_eq_false_iff_not, h2]
  · have hl : ∀ d, d ∈ ((db.domainCerts.filter (fun l => ids.contains l.2)).map Prod.fst).eraseDups ↔ LosesCert db cut d := by
      intro d
      rw [List.mem_eraseDups, List.mem_map]
      constructor
      · rintro ⟨⟨d', i⟩, h, rfl⟩
        obtain ⟨h3, h4⟩ := List.mem_filter.1 h
        exact ⟨i, h3, (h2 i).1 (by simpa using h4)⟩
      · rintro ⟨i, h3, h4⟩
        exact ⟨(d, i), List.mem_filter.2 ⟨h3, by simpa using (h2 i).2 h4⟩, rfl⟩
    intro r
    dsimp only
    rw [mem_replaceInto_iff Prod.fst]
    · rw [List.mem_map]
      constructor
      · rintro (⟨d, hd, rfl⟩ | ⟨h3, h4⟩)
        · exact Or.inl ⟨(hl d).1 hd, rfl⟩
        · refine Or.inr ⟨h3, fun h => ?_⟩
          exact h4 (r.1, false) (List.mem_map.2 ⟨r.1, (hl r.1).2 h, rfl⟩) rfl
      · rintro (⟨h3, h4⟩ | ⟨h3, h4⟩)
        · exact Or.inl ⟨r.1, (hl _).2 h3, by rw [← h4]⟩
        · refine Or.inr ⟨h3, fun x hx e => h4 ?_⟩
          obtain ⟨d, hd, rfl⟩ := List.mem_map.1 hx
          rw [← e]
          exact (hl d).1 hd
    · intro a ha b hb e
      obtain ⟨d, _, rfl⟩ := List.mem_map.1 ha
      obtain ⟨d', _, rfl⟩ := List.mem_map.1 hb
      have : d = d' := e
      rw [this]

/-- One step from a certificate to a child of it. -/
def ChildStep (certs : List Cert) (a b : Bytes) : Prop := ∃ c ∈ certs, c.parent = a ∧ c.id = b

/-- C21 is violated: if an expired certificate lies on a cycle of parent links (two CAs that signed each other), the recursive query does not
end (MySQL gives up with an error), so nothing is pruned. -/
theorem C21_cycle_violated (db : DB) (cut : Nat) (c : Cert) (hc : c ∈ db.certs) (he : c.expiration < cut)
    (hcyc : Relation.TransGen (ChildStep db.certs) c.id c.id) (fuel : Nat) : pruneCerts fuel db cut = none := by
  have key : ∀ (fuel : Nat) (res work : List Bytes), (∃ w ∈ work, Relation.TransGen (ChildStep db.certs) w w) →
      expiredLoop db.certs fuel res work = none := by
    intro fuel
    induction fuel with
    | zero => intros; rfl
    | succ fuel ih =>
      rintro res work ⟨w, hw, hcyc⟩
      obtain ⟨y, ⟨c', hc', hp, rfl⟩, hy⟩ := Relation.TransGen.head'_iff.1 hcyc
      have hm := (mem_children db.certs work c'.id).2 ⟨c', hc', by rw [hp]; exact hw, rfl⟩
      unfold expiredLoop
      dsimp only
      rw [if_neg (List.ne_nil_of_mem hm)]
      exact ih _ _ ⟨c'.id, hm, Relation.TransGen.tail'_iff.2 ⟨w, hy, ⟨c', hc', hp, rfl⟩⟩⟩
  unfold pruneCerts
  dsimp only
  rw [key fuel _ _ ⟨c.id, List.mem_map.2 ⟨c, List.mem_filter.2 ⟨hc, by simpa using he⟩, rfl⟩, hcyc⟩]

/-- Two certificates, each the parent of the other. -/
def crossDB : DB := { emptyDB with certs := [⟨[1], [2], 5, []⟩, ⟨[2], [1], 50, []⟩] }

example : (⟨[1], [2], 5, []⟩ : Cert) ∈ crossDB.certs ∧ Relation.TransGen (ChildStep crossDB.certs) [1] [1] :=
  ⟨by decide, .tail (.single ⟨⟨[2], [1], 50, []⟩, by decide, rfl, rfl⟩) ⟨⟨[1], [2], 5, []⟩, by decide, rfl, rfl⟩⟩

/-- A root, an expired intermediate certificate and its leaf; another leaf. -/
def pruneDB : DB := { emptyDB with
  certs := [⟨[1], [], 90, []⟩, ⟨[2], [1], 5, []⟩, ⟨[3], [2], 80, []⟩, ⟨[4], [1], 70, []⟩]
  domainCerts := [([100], [3]), ([200], [4])] }

example : Acyclic pruneDB.certs ∧ InExpired pruneDB.certs 10 [3] ∧ LosesCert pruneDB 10 [100] ∧
    (pruneCerts 9 pruneDB 10).map (fun db => (db.certs.map Cert.id, db.dirty)) = some ([[1], [4]], [([100], false)]) := by
  have h2 : InExpired pruneDB.certs 10 [3] := .child ⟨[3], [2], 80, []⟩ (by decide) (.expired ⟨[2], [1], 5, []⟩ (by decide) (by decide))
  refine ⟨⟨fun b => b.headD 0 |>.toNat, by decide⟩, h2, ⟨[3], by decide, h2⟩, by decide⟩

/-! ## C22 -/

/-- The certificates (or policies) of a domain: those linked to it, and all their ancestors. -/
inductive InClosure (certs : List Cert) (links : List (Bytes × Bytes)) (d : Bytes) : Cert → Prop where
  | link (c : Cert) : c ∈ certs → (d, c.id) ∈ links → InClosure certs links d c
  | parent (c p : Cert) : InClosure certs links d c → p ∈ certs → p.id = c.parent → InClosure certs links d p

/-- `v` is the right column for the domain `d`: the IDs of its certificates and of all their ancestors, each once, in ascending order, one
after another; NULL if there are none. -/
def IsAgg (certs : List Cert) (links : List (Bytes × Bytes)) (d : Bytes) (v : Option Bytes) : Prop :=
  ∃ ids : List Bytes, ids.Pairwise (fun a b => bytesLt a b = true) ∧ (∀ i, i ∈ ids ↔ ∃ c, InClosure certs links d c ∧ c.id = i) ∧
    v = if ids = [] then none else some ids.flatten

theorem closureLoop_spec (certs : List Cert) (hnd : certs.Nodup) (P : Cert → Prop) (hP : ∀ c p, P c → p ∈ certs → p.id = c.parent → P p) :
    ∀ (fuel : Nat) (res work : List Cert), certs.length < fuel + res.length → (∀ w ∈ work, w ∈ res) → (∀ c ∈ res, P c ∧ c ∈ certs) →
    res.Nodup → (∀ c ∈ res, ∀ p ∈ certs, p.id = c.parent → c ∈ work ∨ p ∈ res) →
    ∃ out, closureLoop certs fuel res work = some out ∧ out.Nodup ∧ (∀ c ∈ out, P c ∧ c ∈ certs) ∧ (∀ c ∈ res, c ∈ out) ∧
      (∀ c ∈ out, ∀ p ∈ certs, p.id = c.parent → p ∈ out) := by
  intro fuel
  induction fuel with
  | zero =>
    intro res work hf _ hres hn _
    have := (List.subperm_of_subset hn (fun c hc => (hres c hc).2)).length_le
    omega
  | succ fuel ih =>
    intro res work hf hw hres hn hcl
    unfold closureLoop
    dsimp only
    have hmem : ∀ p, p ∈ certs.filter (fun c => work.any (fun w => w.parent == c.id) && !res.contains c) ↔
        p ∈ certs ∧ (∃ w ∈ work, w.parent = p.id) ∧ p ∉ res := by
      intro p
      simp [List.mem_filter]
    have hnn : (certs.filter (fun c => work.any (fun w => w.parent == c.id) && !res.contains c)).Nodup := hnd.filter _
    generalize certs.filter (fun c => work.any (fun w => w.parent == c.id) && !res.contains c) = next at hmem hnn
    by_cases h0 : next = []
    · rw [if_pos h0]
      refine ⟨res, rfl, hn, hres, fun c h => h, fun c hc p hp he => ?_⟩
      rcases hcl c hc p hp he with h | h
      · by_contra hcon
        have := (hmem p).2 ⟨hp, ⟨c, h, he.symm⟩, hcon⟩
        rw [h0] at this
        cases this
      · exact h
    · rw [if_neg h0]
      have hpos := List.length_pos_iff.2 h0
      obtain ⟨out, o1, o2, o3, o4, o5⟩ := ih (res ++ next) next (by rw [List.length_append]; omega) (fun w h => List.mem_append_right _ h) (by
        intro c hc
        rcases List.mem_append.1 hc with hc | hc
        · exact hres c hc
        · obtain ⟨h1, ⟨w, h2, h3⟩, _⟩ := (hmem c).1 hc
          exact ⟨hP w c (hres w (hw w h2)).1 h1 h3.symm, h1⟩) (by
        rw [List.nodup_append]
        refine ⟨hn, hnn, ?_⟩
        rintro a ha b hb rfl
        exact ((hmem a).1 hb).2.2 ha) (by
        intro c hc p hp he
        rcases List.mem_append.1 hc with hc | hc
        · rcases hcl c hc p hp he with h | h
          · right
            by_cases hr : p ∈ res
            · exact List.mem_append_left _ hr
            · exact List.mem_append_right _ ((hmem p).2 ⟨hp, ⟨c, h, he.symm⟩, hr⟩)
          · exact Or.inr (List.mem_append_left _ h)
        · exact Or.inl hc)
      exact ⟨out, o1, o2, o3, fun c hc => o4 c (List.mem_append_left _ hc), o5⟩

/-- No two rows with the same key. -/
def KeyUnique (key : α → Bytes) (t : List α) : Prop := (t.map key).Nodup

theorem sortIds_strict (l : List Bytes) (h : l.Nodup) : (l.mergeSort (fun a b => !bytesLt b a)).Pairwise (fun a b => bytesLt a b = true) := by
  have hp := List.mergeSort_perm l (fun a b => !bytesLt b a)
  have hs := List.pairwise_mergeSort (le := fun a b => !bytesLt b a) (fun a b c h1 h2 => by
      simp only [Bool.not_eq_true'] at h1 h2 ⊢
      cases h3 : bytesLt c a with
      | false => rfl
      | true =>
        by_cases hab : a = b
        · subst hab; rw [h3] at h2; cases h2
        · rcases bytesLt_total hab with h4 | h4
          · rw [bytesLt_trans h3 h4] at h2; cases h2
          · rw [h1] at h4; cases h4) (fun a b => by
      by_cases hab : a = b
      · subst hab; simp [bytesLt_irrefl]
      · rcases bytesLt_total hab with h4 | h4
        · simp [bytesLt_asymm h4]
        · simp [bytesLt_asymm h4]) l
  have hnd : (l.mergeSort (fun a b => !bytesLt b a)).Nodup := hp.nodup_iff.2 h
  refine (List.Pairwise.and hs hnd).imp ?_
  rintro a b ⟨h1, h2⟩
  simp only [Bool.not_eq_true'] at h1
  rcases bytesLt_total h2 with h3 | h3
  · exact h3
  · rw [h3] at h1; cases h1

theorem strict_ext : ∀ (l l' : List Bytes), l.Pairwise (fun a b => bytesLt a b = true) → l'.Pairwise (fun a b => bytesLt a b = true) →
    (∀ i, i ∈ l ↔ i ∈ l') → l = l'
  | [], l', _, _, h => by
    cases l' with
    | nil => rfl
    | cons b l' => exact absurd ((h b).2 List.mem_cons_self) (by simp)
  | a :: l, [], _, _, h => absurd ((h a).1 List.mem_cons_self) (by simp)
  | a :: l, b :: l', h1, h2, h => by
    rw [List.pairwise_cons] at h1 h2
    have hab : a = b := by
      by_contra hne
      have ha : a ∈ l' := by
        rcases List.mem_cons.1 ((h a).1 List.mem_cons_self) with e | e
        · exact absurd e hne
        · exact e
      have hb : b ∈ l := by
        rcases List.mem_cons.1 ((h b).2 List.mem_cons_self) with e | e
        · exact absurd e.symm hne
        · exact e
      have := bytesLt_asymm (h1.1 b hb)
      rw [h2.1 a ha] at this
      cases this
    subst hab
    congr 1
    refine strict_ext l l' h1.2 h2.2 fun i => ⟨fun hi => ?_, fun hi => ?_⟩
    · rcases List.mem_cons.1 ((h i).1 (List.mem_cons_of_mem _ hi)) with e | e
      · subst e
        have := h1.1 i hi
        rw [bytesLt_irrefl] at this
        cases this
      · exact e
    · rcases List.mem_cons.1 ((h i).2 (List.mem_cons_of_mem _ hi)) with e | e
      · subst e
        have := h2.1 i hi
        rw [bytesLt_irrefl] at this
        cases this
      · exact e

/-- The right column is unique: it depends only on the sets of rows, not on their order. -/
theorem isAgg_unique {certs certs' : List Cert} {links links' : List (Bytes × Bytes)} {d : Bytes} {v v' : Option Bytes}
    (hc : ∀ c, c ∈ certs ↔ c ∈ certs') (hl : ∀ i, (d, i) ∈ links ↔ (d, i) ∈ links') (h : IsAgg certs links d v) (h' : IsAgg certs' links' d v') :
    v = v' := by
  have key : ∀ {cs cs' : List Cert} {ls ls' : List (Bytes × Bytes)}, (∀ c, c ∈ cs → c ∈ cs') → (∀ i, (d, i) ∈ ls → (d, i) ∈ ls') → ∀ c,
      InClosure cs ls d c → InClosure cs' ls' d c := by
    intro cs cs' ls ls' h1 h2 c h
    induction h with
    | link c hc hl => exact .link c (h1 c hc) (h2 _ hl)
    | parent c p _ hp he ih => exact .parent c p ih (h1 p hp) he
  obtain ⟨ids, h1, h2, rfl⟩ := h
  obtain ⟨ids', h1', h2', rfl⟩ := h'
  have : ids = ids' := strict_ext _ _ h1 h1' (fun i => by
    rw [h2, h2']
    exact ⟨fun ⟨c, h, e⟩ => ⟨c, key (fun c => (hc c).1) (fun i => (hl i).1) c h, e⟩,
      fun ⟨c, h, e⟩ => ⟨c, key (fun c => (hc c).2) (fun i => (hl i).2) c h, e⟩⟩)
  rw [this]

theorem aggregate_spec (certs : List Cert) (links : List (Bytes × Bytes)) (hk : KeyUnique Cert.id certs) (d : Bytes) (fuel : Nat)
    (hf : certs.length < fuel) : ∃ v, aggregate fuel certs links d = some v ∧ IsAgg certs links d v := by
  have hnd : certs.Nodup := List.Nodup.of_map _ hk
  have hlm : ∀ c, c ∈ linked certs links d ↔ c ∈ certs ∧ (d, c.id) ∈ links := by
    intro c
    simp [linked]
  obtain ⟨out, o1, o2, o3, o4, o5⟩ := closureLoop_spec certs hnd (InClosure certs links d) (fun c p h hp he => .parent c p h hp he) fuel
    (linked certs links d) (linked certs links d) (by omega) (fun w h => h)
    (fun c h => ⟨.link c ((hlm c).1 h).1 ((hlm c).1 h).2, ((hlm c).1 h).1⟩) (hnd.filter _) (fun c h _ _ _ => Or.inl h)
  refine ⟨glue out, by unfold aggregate; dsimp only; rw [o1]; rfl, (out.map Cert.id).mergeSort (fun a b => !bytesLt b a), ?_, ?_, ?_⟩
  · apply sortIds_strict
    have hinj : ∀ a ∈ certs, ∀ b ∈ certs, a.id = b.id → a = b := fun a ha b hb e => List.inj_on_of_nodup_map hk ha hb e
    exact o2.map_on (fun a ha b hb e => hinj a (o3 a ha).2 b (o3 b hb).2 e)
  · intro i
    rw [List.mem_mergeSort, List.mem_map]
    constructor
    · rintro ⟨c, hc, rfl⟩
      exact ⟨c, (o3 c hc).1, rfl⟩
    · rintro ⟨c, hc, rfl⟩
      refine ⟨c, ?_, rfl⟩
      induction hc with
      | link c h1 h2 => exact o4 c ((hlm c).2 ⟨h1, h2⟩)
      | parent c p _ hp he ih => exact o5 c ih p hp he
  · unfold glue Ids.idsToBytes
    by_cases h0 : out = []
    · subst h0
      simp
    · have : (out.map Cert.id).mergeSort (fun a b => !bytesLt b a) ≠ [] := by
        intro h
        have := congrArg List.length h
        rw [List.length_mergeSort, List.length_map] at this
        exact h0 (List.length_eq_zero_iff.1 this)
      rw [if_neg h0, if_neg this]

/-- The primary keys the code relies on. -/
structure Keys (db : DB) : Prop where
  certs : KeyUnique Cert.id db.certs
  policies : KeyUnique Cert.id db.policies
  dirty : KeyUnique Prod.fst db.dirty

/-- `r` has the right columns for its domain. -/
def IsPayload (db : DB) (r : Payload) : Prop :=
  IsAgg db.certs db.domainCerts r.domain r.certIds ∧ IsAgg db.policies db.domainPolicies r.domain r.policyIds

/-- `r` is a row a domain with at least one certificate or policy must have. -/
def GoodRow (db : DB) (r : Payload) : Prop := IsPayload db r ∧ (r.certIds ≠ none ∨ r.policyIds ≠ none)

theorem isPayload_unique {db : DB} {r r' : Payload} (h : IsPayload db r) (h' : IsPayload db r') (he : r.domain = r'.domain) : r = r' := by
  obtain ⟨d, c, p⟩ := r
  obtain ⟨d', c', p'⟩ := r'
  have he' : d = d' := he
  subst he'
  have h1 := isAgg_unique (fun _ => Iff.rfl) (fun _ => Iff.rfl) h.1 h'.1
  have h2 := isAgg_unique (fun _ => Iff.rfl) (fun _ => Iff.rfl) h.2 h'.2
  dsimp only at h1 h2
  rw [h1, h2]

theorem mapM_spec {f : α → Option β} {Q : α → β → Prop} : ∀ (l : List α), (∀ a ∈ l, ∃ b, f a = some b ∧ Q a b) →
    ∃ bs, l.mapM f = some bs ∧ (∀ b ∈ bs, ∃ a ∈ l, Q a b) ∧ (∀ a ∈ l, ∃ b ∈ bs, Q a b)
  | [], _ => ⟨[], by simp, by simp, by simp⟩
  | a :: l, h => by
    obtain ⟨bs, h1, h2, h3⟩ := mapM_spec l (fun a ha => h a (List.mem_cons_of_mem _ ha))
    obtain ⟨b, h4, h5⟩ := h a List.mem_cons_self
    refine ⟨b :: bs, by simp [List.mapM_cons, h1, h4], ?_, ?_⟩
    · intro x hx
      rcases List.mem_cons.1 hx with rfl | hx
      · exact ⟨a, List.mem_cons_self, h5⟩
      · obtain ⟨y, hy, hq⟩ := h2 x hx
        exact ⟨y, List.mem_cons_of_mem _ hy, hq⟩
    · intro x hx
      rcases List.mem_cons.1 hx with rfl | hx
      · exact ⟨b, List.mem_cons_self, h5⟩
      · obtain ⟨y, hy, hq⟩ := h3 x hx
        exact ⟨y, List.mem_cons_of_mem _ hy, hq⟩

/-- `d` was waiting in `db0` and is not any more in `db`. -/
def Done (db0 db : DB) (d : Bytes) : Prop := (d, false) ∈ db0.dirty ∧ (d, false) ∉ db.dirty

/-- `db` is `db0` with some waiting domains processed. -/
structure Progress (db0 db : DB) : Prop where
  certs : db.certs = db0.certs
  domainCerts : db.domainCerts = db0.domainCerts
  policies : db.policies = db0.policies
  domainPolicies : db.domainPolicies = db0.domainPolicies
  dirtyKeys : db.dirty.map Prod.fst = db0.dirty.map Prod.fst
  waiting : ∀ d, (d, false) ∈ db.dirty → (d, false) ∈ db0.dirty
  payloads : ∀ r, r ∈ db.payloads ↔ (Done db0 db r.domain ∧ GoodRow db0 r) ∨ (¬ Done db0 db r.domain ∧ r ∈ db0.payloads)
  domains : ∀ x, x ∈ db.domains ↔ x ∈ db0.domains ∧ (Done db0 db x.1 → ∃ r, r.domain = x.1 ∧ GoodRow db0 r)

theorem Progress.refl (db : DB) : Progress db db :=
  ⟨rfl, rfl, rfl, rfl, rfl, fun _ h => h, fun r => by
    have : ¬ Done db db r.domain := fun h => h.2 h.1
    simp [this], fun x => by
    have : ¬ Done db db x.1 := fun h => h.2 h.1
    simp [this]⟩

/-- Number of domains still waiting. -/
def waitingCount (db : DB) : Nat := db.dirty.countP (fun r => !r.2)

theorem mem_chunkOf {db : DB} {p chunk : Nat} {d : Bytes} (h : d ∈ chunkOf db p chunk) : (d, false) ∈ db.dirty ∧ shardOf d = p := by
  unfold chunkOf at h
  have := List.mem_of_mem_take h
  rw [List.mem_mergeSort, List.mem_map] at this
  obtain ⟨⟨d', b⟩, hr, rfl⟩ := this
  obtain ⟨h1, h2⟩ := List.mem_filter.1 hr
  simp only [Bool.and_eq_true, beq_iff_eq, Bool.not_eq_true'] at h2
  obtain ⟨h2, h3⟩ := h2
  subst h3
  exact ⟨h1, h2⟩

theorem chunkOf_nil {db : DB} {p chunk : Nat} (hc : 0 < chunk) (h : (chunkOf db p chunk).length = 0) (d : Bytes) (hs : shardOf d = p) :
    (d, false) ∉ db.dirty := by
  intro hd
  unfold chunkOf at h
  rw [List.length_take, List.length_mergeSort, List.length_map] at h
  have : ((db.dirty.filter (fun r => shardOf r.1 == p && !r.2))).length = 0 := by omega
  rw [List.length_eq_zero_iff, List.filter_eq_nil_iff] at this
  exact this (d, false) hd (by simp [hs])

theorem countP_map_lt {α : Type} (p : α → Bool) (f : α → α) : ∀ (l : List α), (∀ a, p (f a) = true → p a = true) → (∃ a ∈ l, p a = true ∧ p (f a) = false) →
    (l.map f).countP p < l.countP p
  | [], _, h => by obtain ⟨_, h, _⟩ := h; cases h
  | a :: l, hm, h => by
    have hle : (l.map f).countP p ≤ l.countP p := by
      clear h
      induction l with
      | nil => simp
      | cons b l ih =>
        rw [List.map_cons, List.countP_cons, List.countP_cons]
        have h3 := hm b
        cases h1 : p (f b) <;> cases h2 : p b
        · simpa using ih
        · simp only [Bool.false_eq_true, if_false, if_true]; omega
        · rw [h1, h2] at h3; cases h3 rfl
        · simp only [if_true]; omega
    rw [List.map_cons, List.countP_cons, List.countP_cons]
    obtain ⟨x, hx, h1, h2⟩ := h
    rcases List.mem_cons.1 hx with rfl | hx
    · rw [h1, h2]
      simp only [Bool.false_eq_true, if_false, if_true]
      omega
    · have ih := countP_map_lt p f l hm ⟨x, hx, h1, h2⟩
      have h5 := hm a
      cases h3 : p (f a) <;> cases h4 : p a
      · simpa using ih
      · simp only [Bool.false_eq_true, if_false, if_true]; omega
      · rw [h3, h4] at h5; cases h5 rfl
      · simp only [if_true]; omega

theorem calc_step {db0 db : DB} (hk : Keys db0) (hp : Progress db0 db) (fuel p chunk : Nat) (hf : db0.certs.length < fuel)
    (hf' : db0.policies.length < fuel) (hc : 0 < chunk) : ∃ db' k, calcDirtyDomains fuel db p chunk = some (db', k) ∧ Progress db0 db' ∧
      (∀ d, (d, false) ∈ db'.dirty → (d, false) ∈ db.dirty) ∧ (k = 0 → db' = db ∧ ∀ d, shardOf d = p → (d, false) ∉ db'.dirty) ∧
      (k ≠ 0 → waitingCount db' < waitingCount db) := by
  unfold calcDirtyDomains
  dsimp only
  by_cases h0 : (chunkOf db p chunk).length = 0
  · rw [if_pos h0]
    exact ⟨db, 0, rfl, hp, fun _ h => h, fun _ => ⟨rfl, fun d hs => chunkOf_nil hc h0 d hs⟩, fun h => absurd rfl h⟩
  · rw [if_neg h0]
    have hch := fun d (h : d ∈ chunkOf db p chunk) => mem_chunkOf h
    generalize hcheq : chunkOf db p chunk = ch at hch h0
    obtain ⟨rows, hr1, hr2, hr3⟩ := mapM_spec (f := payloadOf fuel db) (Q := fun d (r : Payload) => r.domain = d ∧ IsPayload db0 r) ch (by
      intro d _
      obtain ⟨v, h1, h2⟩ := aggregate_spec db0.certs db0.domainCerts hk.certs d fuel hf
      obtain ⟨v', h1', h2'⟩ := aggregate_spec db0.policies db0.domainPolicies hk.policies d fuel hf'
      refine ⟨⟨d, v, v'⟩, ?_, rfl, h2, h2'⟩
      unfold payloadOf
      rw [hp.certs, hp.domainCerts, hp.policies, hp.domainPolicies, h1, h1'])
    rw [hr1]
    dsimp only
    refine ⟨_, _, rfl, ?_, ?_, fun h => absurd h h0, ?_⟩
    · -- progress
      have hdone : ∀ d, Done db0 { db with
          payloads := (replaceInto Payload.domain db.payloads rows).filter (fun r => !(ch.contains r.domain && r.certIds.isNone && r.policyIds.isNone))
          domains := db.domains.filter (fun d => !(ch.contains d.1 && !((replaceInto Payload.domain db.payloads rows).filter (fun r => !(ch.contains r.domain && r.certIds.isNone && r.policyIds.isNone))).any (fun r => r.domain == d.1)))
          dirty := db.dirty.map (fun r => if ch.contains r.1 then (r.1, true) else r) } d ↔ Done db0 db d ∨ d ∈ ch := by
        intro d
        unfold Done
        dsimp only
        have hm : (d, false) ∈ db.dirty.map (fun r => if ch.contains r.1 then (r.1, true) else r) ↔ (d, false) ∈ db.dirty ∧ d ∉ ch := by
          rw [List.mem_map]
          constructor
          · rintro ⟨r, h1, h2⟩
            by_cases hcm : r.1 ∈ ch
            · simp [hcm] at h2
            · simp only [List.contains_eq_mem, hcm, decide_false, Bool.false_eq_true, if_false] at h2
              subst h2
              exact ⟨h1, hcm⟩
          · rintro ⟨h1, h2⟩
            exact ⟨(d, false), h1, by simp [h2]⟩
        rw [hm]
        constructor
        · rintro ⟨h1, h2⟩
          by_cases hd : (d, false) ∈ db.dirty
          · right
            by_contra hcon
            exact h2 ⟨hd, hcon⟩
          · exact Or.inl ⟨h1, hd⟩
        · rintro (⟨h1, h2⟩ | h)
          · exact ⟨h1, fun h => h2 h.1⟩
          · exact ⟨hp.waiting d (hch d h).1, fun h' => h'.2 h⟩
      have hpay : ∀ r, r ∈ (replaceInto Payload.domain db.payloads rows).filter (fun r => !(ch.contains r.domain && r.certIds.isNone && r.policyIds.isNone)) ↔
          (r.domain ∈ ch ∧ GoodRow db0 r) ∨ (r.domain ∉ ch ∧ r ∈ db.payloads) := by
        intro r
        have hinj : ∀ a ∈ rows, ∀ b ∈ rows, a.domain = b.domain → a = b := by
          intro a ha b hb e
          obtain ⟨_, _, _, h1⟩ := hr2 a ha
          obtain ⟨_, _, _, h2⟩ := hr2 b hb
          exact isPayload_unique h1 h2 e
        have hne : (!(ch.contains r.domain && r.certIds.isNone && r.policyIds.isNone)) = true ↔ (r.domain ∈ ch → (r.certIds ≠ none ∨ r.policyIds ≠ none)) := by
          rcases r with ⟨d, c, q⟩
          cases c <;> cases q <;> simp
        rw [List.mem_filter, mem_replaceInto_iff Payload.domain rows db.payloads r hinj, hne]
        constructor
        · rintro ⟨h1 | ⟨h1, h2⟩, h3⟩
          · obtain ⟨d, hd, he, hi⟩ := hr2 r h1
            rw [← he] at hd
            exact Or.inl ⟨hd, hi, h3 hd⟩
          · right
            refine ⟨fun hd => ?_, h1⟩
            obtain ⟨x, hx, he, _⟩ := hr3 _ hd
            exact h2 x hx he
        · rintro (⟨h1, h2, h3⟩ | ⟨h1, h2⟩)
          · obtain ⟨x, hx, he, hi⟩ := hr3 _ h1
            rw [isPayload_unique h2 hi he.symm]
            refine ⟨Or.inl hx, fun _ => ?_⟩
            rw [← isPayload_unique h2 hi he.symm]
            exact h3
          · refine ⟨Or.inr ⟨h2, fun x hx e => h1 ?_⟩, fun h => absurd h h1⟩
            obtain ⟨d, hd, he, _⟩ := hr2 x hx
            rw [← e, he]
            exact hd
      refine ⟨hp.certs, hp.domainCerts, hp.policies, hp.domainPolicies, ?_, ?_, ?_, ?_⟩
      · dsimp only
        rw [← hp.dirtyKeys, List.map_map]
        apply List.map_congr_left
        intro r _
        dsimp only [Function.comp]
        split <;> rfl
      · intro d hd
        dsimp only at hd
        rw [List.mem_map] at hd
        obtain ⟨r, h1, h2⟩ := hd
        split at h2
        · simp at h2
        · subst h2
          exact hp.waiting _ h1
      · intro r
        rw [hdone r.domain]
        dsimp only
        rw [hpay r, hp.payloads r]
        by_cases hd : r.domain ∈ ch
        · simp [hd]
        · simp [hd]
      · intro x
        rw [hdone x.1]
        dsimp only
        rw [List.mem_filter, hp.domains x]
        have hne : (!(ch.contains x.1 && !((replaceInto Payload.domain db.payloads rows).filter (fun r => !(ch.contains r.domain && r.certIds.isNone && r.policyIds.isNone))).any (fun r => r.domain == x.1))) = true ↔
            (x.1 ∈ ch → ∃ r, r.domain = x.1 ∧ GoodRow db0 r) := by
          rw [Bool.not_eq_true', Bool.and_eq_false_iff, Bool.not_eq_false', List.any_eq_true]
          constructor
          · rintro (h | ⟨r, h1, h2⟩) hx
            · simp [hx] at h
            · rw [beq_iff_eq] at h2
              rcases (hpay r).1 h1 with ⟨_, h⟩ | ⟨h, _⟩
              · exact ⟨r, h2, h⟩
              · rw [h2] at h
                exact absurd hx h
          · intro h
            by_cases hx : x.1 ∈ ch
            · obtain ⟨r, h1, h2⟩ := h hx
              exact Or.inr ⟨r, (hpay r).2 (Or.inl ⟨by rw [h1]; exact hx, h2⟩), by simpa using h1⟩
            · left
              simpa using hx
        rw [hne]
        constructor
        · rintro ⟨⟨h1, h2⟩, h3⟩
          exact ⟨h1, fun h => h.elim h2 h3⟩
        · rintro ⟨h1, h2⟩
          exact ⟨⟨h1, fun h => h2 (Or.inl h)⟩, fun h => h2 (Or.inr h)⟩
    · intro d hd
      dsimp only at hd
      rw [List.mem_map] at hd
      obtain ⟨r, h1, h2⟩ := hd
      split at h2
      · simp at h2
      · subst h2
        exact h1
    · intro _
      unfold waitingCount
      dsimp only
      apply countP_map_lt
      · intro r
        split <;> simp
      · have hpos : 0 < ch.length := by omega
        obtain ⟨d, hd⟩ := List.exists_mem_of_length_pos hpos
        exact ⟨(d, false), (hch d hd).1, rfl, by simp [hd]⟩

theorem coalescePartition_spec {db0 : DB} (hk : Keys db0) (fuel p chunk : Nat) (hf : db0.certs.length < fuel) (hf' : db0.policies.length < fuel)
    (hc : 0 < chunk) : ∀ (n : Nat) (db : DB), Progress db0 db → waitingCount db < n → ∃ db', coalescePartition fuel chunk p n db = some db' ∧
      Progress db0 db' ∧ (∀ d, (d, false) ∈ db'.dirty → (d, false) ∈ db.dirty) ∧ (∀ d, shardOf d = p → (d, false) ∉ db'.dirty) ∧
      waitingCount db' ≤ waitingCount db := by
  intro n
  induction n with
  | zero => intro db _ h; omega
  | succ n ih =>
    intro db hp hn
    obtain ⟨db', k, h1, h2, h3, h4, h5⟩ := calc_step hk hp fuel p chunk hf hf' hc
    unfold coalescePartition
    rw [h1]
    dsimp only
    by_cases h0 : k = 0
    · rw [if_pos h0]
      obtain ⟨rfl, h7⟩ := h4 h0
      exact ⟨_, rfl, h2, h3, h7, le_refl _⟩
    · rw [if_neg h0]
      have := h5 h0
      obtain ⟨db'', g1, g2, g3, g4, g5⟩ := ih db' h2 (by omega)
      exact ⟨db'', g1, g2, fun d h => h3 d (g3 d h), g4, by omega⟩

theorem shardOf_lt (d : Bytes) : shardOf d < 32 := by
  unfold shardOf
  have := (d.headD 0).toNat_lt
  omega

theorem recompute_progress {db0 : DB} (hk : Keys db0) (fuel chunk n : Nat) (hf : db0.certs.length < fuel) (hf' : db0.policies.length < fuel)
    (hc : 0 < chunk) : ∀ (ps : List Nat) (db : DB), Progress db0 db → waitingCount db < n → ∃ db',
      ps.foldlM (fun db p => coalescePartition fuel chunk p n db) db = some db' ∧ Progress db0 db' ∧ (∀ d, (d, false) ∈ db'.dirty → (d, false) ∈ db.dirty) ∧
      (∀ d, shardOf d ∈ ps → (d, false) ∉ db'.dirty)
  | [], db, hp, hn => ⟨db, rfl, hp, fun _ h => h, by simp⟩
  | p :: ps, db, hp, hn => by
    obtain ⟨db', h1, h2, h3, h4, h5⟩ := coalescePartition_spec hk fuel p chunk hf hf' hc n db hp hn
    obtain ⟨db'', g1, g2, g3, g4⟩ := recompute_progress hk fuel chunk n hf hf' hc ps db' h2 (by omega)
    refine ⟨db'', ?_, g2, fun d h => h3 d (g3 d h), ?_⟩
    · rw [List.foldlM_cons, h1]
      exact g1
    · intro d hd
      rcases List.mem_cons.1 hd with hd | hd
      · exact fun h => h4 d hd (g3 d h)
      · exact g4 d hd

/-- C22: coalescing ends. Afterwards the payload of every domain that was waiting consists of the IDs of its certificates and of all their
ancestors, each once and in ascending order (same for policies); without any, the domain has no payload and is not in `domains` any more. The payloads of all other domains,
certificates, policies and links are unchanged, and no domain is waiting. -/
theorem C22_coalesced_payload (db : DB) (hk : Keys db) (fuel chunk n : Nat) (hf : db.certs.length < fuel) (hf' : db.policies.length < fuel)
    (hc : 0 < chunk) (hn : db.dirty.length < n) : ∃ db', recomputeDirty fuel chunk n db = some db' ∧
      (∀ r, (r.domain, false) ∈ db.dirty → (r ∈ db'.payloads ↔
        IsAgg db.certs db.domainCerts r.domain r.certIds ∧ IsAgg db.policies db.domainPolicies r.domain r.policyIds ∧ (r.certIds ≠ none ∨ r.policyIds ≠ none))) ∧
      (∀ r, (r.domain, false) ∉ db.dirty → (r ∈ db'.payloads ↔ r ∈ db.payloads)) ∧
      (∀ x, x ∈ db'.domains ↔ x ∈ db.domains ∧ ((x.1, false) ∈ db.dirty → ∃ r ∈ db'.payloads, r.domain = x.1)) ∧
      db'.dirty = db.dirty.map (fun r => (r.1, true)) ∧
      db'.certs = db.certs ∧ db'.domainCerts = db.domainCerts ∧ db'.policies = db.policies ∧ db'.domainPolicies = db.domainPolicies := by
  have hw : waitingCount db < n := lt_of_le_of_lt List.countP_le_length hn
  obtain ⟨db', h1, h2, h3, h4⟩ := recompute_progress hk fuel chunk n hf hf' hc (List.range 32) db (Progress.refl db) hw
  have hall : ∀ d, (d, false) ∉ db'.dirty := fun d => h4 d (List.mem_range.2 (shardOf_lt d))
  have hdone : ∀ d, Done db db' d ↔ (d, false) ∈ db.dirty := fun d => ⟨fun h => h.1, fun h => ⟨h, hall d⟩⟩
  refine ⟨db', h1, ?_, ?_, ?_, ?_, h2.certs, h2.domainCerts, h2.policies, h2.domainPolicies⟩
  · intro r hr
    rw [h2.payloads r, hdone]
    simp only [hr, true_and, not_true_eq_false, false_and, or_false]
    exact and_assoc
  · intro r hr
    rw [h2.payloads r, hdone]
    simp [hr]
  · intro x
    rw [h2.domains x, hdone]
    refine and_congr_right fun _ => imp_congr_right fun hx => ?_
    constructor
    · rintro ⟨r, he, hg⟩
      refine ⟨r, (h2.payloads r).2 (Or.inl ⟨(hdone _).2 (by rw [he]; exact hx), hg⟩), he⟩
    · rintro ⟨r, hr, he⟩
      rcases (h2.payloads r).1 hr with ⟨_, hg⟩ | ⟨hnd, _⟩
      · exact ⟨r, he, hg⟩
      · rw [hdone, he] at hnd
        exact absurd hx hnd
  · have hfst := h2.dirtyKeys
    have : db'.dirty = (db'.dirty.map Prod.fst).map (fun d => (d, true)) := by
      rw [List.map_map]
      conv_lhs => rw [← List.map_id db'.dirty]
      apply List.map_congr_left
      rintro ⟨d, b⟩ hr
      cases b with
      | true => rfl
      | false => exact absurd hr (hall d)
    rw [this, hfst, List.map_map]
    rfl

/-- C22: the payloads do not depend on the order in which rows were inserted. -/
theorem C22_order_free (db db2 : DB) (hk : Keys db) (hk2 : Keys db2) (fuel chunk n : Nat) (hf : db.certs.length < fuel)
    (hf' : db.policies.length < fuel) (hc : 0 < chunk) (hn : db.dirty.length < n)
    (p1 : db.certs.Perm db2.certs) (p2 : db.domainCerts.Perm db2.domainCerts) (p3 : db.policies.Perm db2.policies)
    (p4 : db.domainPolicies.Perm db2.domainPolicies) (p5 : db.dirty.Perm db2.dirty) :
    ∃ a b, recomputeDirty fuel chunk n db = some a ∧ recomputeDirty fuel chunk n db2 = some b ∧
      ∀ r, (r.domain, false) ∈ db.dirty → (r ∈ a.payloads ↔ r ∈ b.payloads) := by
  obtain ⟨a, a1, a2, _⟩ := C22_coalesced_payload db hk fuel chunk n hf hf' hc hn
  obtain ⟨b, b1, b2, _⟩ := C22_coalesced_payload db2 hk2 fuel chunk n (by rw [← p1.length_eq]; exact hf) (by rw [← p3.length_eq]; exact hf') hc
    (by rw [← p5.length_eq]; exact hn)
  refine ⟨a, b, a1, b1, fun r hr => ?_⟩
  rw [a2 r hr, b2 r (p5.mem_iff.1 hr)]
  have key : ∀ {cs cs' : List Cert} {ls ls' : List (Bytes × Bytes)} {d : Bytes} {v : Option Bytes}, cs.Perm cs' → ls.Perm ls' → IsAgg cs ls d v → IsAgg cs' ls' d v := by
    intro cs cs' ls ls' d v q1 q2 ⟨ids, h1, h2, h3⟩
    refine ⟨ids, h1, fun i => ?_, h3⟩
    rw [h2 i]
    have mono : ∀ {cs cs' : List Cert} {ls ls' : List (Bytes × Bytes)}, cs.Perm cs' → ls.Perm ls' → ∀ c, InClosure cs ls d c → InClosure cs' ls' d c := by
      intro cs cs' ls ls' q1 q2 c h
      induction h with
      | link c hc hl => exact .link c (q1.mem_iff.1 hc) (q2.mem_iff.1 hl)
      | parent c p _ hp he ih => exact .parent c p ih (q1.mem_iff.1 hp) he
    exact ⟨fun ⟨c, h, e⟩ => ⟨c, mono q1 q2 c h, e⟩, fun ⟨c, h, e⟩ => ⟨c, mono q1.symm q2.symm c h, e⟩⟩
  exact ⟨fun ⟨x, y, z⟩ => ⟨key p1 p2 x, key p3 p4 y, z⟩, fun ⟨x, y, z⟩ => ⟨key p1.symm p2.symm x, key p3.symm p4.symm y, z⟩⟩

/-- Two domains that share a chain, one without certificates. -/
def coalDB : DB := { emptyDB with
  certs := [⟨[3], [2], 80, []⟩, ⟨[1], [], 90, []⟩, ⟨[2], [1], 90, []⟩, ⟨[4], [1], 70, []⟩]
  domains := [([100], []), ([101], []), ([200], [])]
  domainCerts := [([100], [3]), ([101], [4]), ([101], [3])]
  dirty := [([100], false), ([200], false), ([101], false)]
  payloads := [⟨[200], some [9], none⟩] }

example : Keys coalDB ∧ ([100], false) ∈ coalDB.dirty ∧ InClosure coalDB.certs coalDB.domainCerts [100] ⟨[1], [], 90, []⟩ := by
  refine ⟨⟨?_, ?_, ?_⟩, by decide, ?_⟩
  · unfold KeyUnique; decide
  · unfold KeyUnique; decide
  · unfold KeyUnique; decide
  · exact .parent ⟨[2], [1], 90, []⟩ _ (.parent ⟨[3], [2], 80, []⟩ _ (.link _ (by decide) (by decide)) (by decide) rfl) (by decide) rfl

end Fpki.Db
