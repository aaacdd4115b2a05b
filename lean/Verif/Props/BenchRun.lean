import Verif.Lemmas.BenchRun
import Verif.Props.Bench

/-!
# C193: how the runs of the benchmark are checked
-/
namespace Fpki.Bench
open Fpki.Db

/-- What is known of a fixture (from `plan_spec` and `build_spec`). -/
theorem fixture_good (dirty : Nat) (skew : Skew) (balance : Nat) (hd : 20480 ≤ dirty) (hd' : dirty ≤ 2 ^ 60) (hb : balance ≤ 75) : ∃ p f s, plan dirty skew balance = some p ∧ build p = some f ∧
    Good f p.certOnlyCount p.mixedCount s ∧ s = p.staleCount ∧ p.certOnlyCount + p.mixedCount + s = dirty ∧ p.mixedCount = mixedDomainsForBalance (dirty - dirty * 5 / 1000) balance := by
  obtain ⟨p, h1, l1, l2, l3, l4, s1, s2, s3, s4, _, h4, h5, _⟩ := plan_spec dirty skew balance hd hb
  have hst := stale_sum p l1 l2 l3 l4 (fun i hi => h5 i hi)
  obtain ⟨f, hbf, g⟩ := build_spec p l2 l3 l4 (by omega)
  rw [s2, s3] at g
  exact ⟨p, f, _, h1, hbf, g, by omega, by omega, h4⟩

theorem perm_of_mem {l l' : List Payload} (h : ∀ r, r ∈ l ↔ r ∈ l') (h1 : (l.map Payload.domain).Nodup) (h2 : (l'.map Payload.domain).Nodup) : l.Perm l' :=
  (List.perm_ext_iff_of_nodup (List.Nodup.of_map _ h1) (List.Nodup.of_map _ h2)).2 h

/-- C193: the checks are sound. If a run is accepted (of either variant), no hash of a stored column collides with that of an expected one, and the tables have their primary keys: the
payloads of the domains that are not stale are exactly the expected rows. For the new variant there are no other payloads, and no stale domain is left. -/
theorem C193_sound (H : Bytes → Bytes) (v : Variant) (p : Plan) (dirty : Nat) (f : Files) (db : DB) (hdom : (db.domains.map Prod.fst).Nodup) (hpay : (db.payloads.map Payload.domain).Nodup)
    (hH : ∀ g ∈ db.payloads, ∀ w ∈ f.expected, (g.certIds.map H = w.certIds.map H → g.certIds = w.certIds) ∧ (g.policyIds.map H = w.policyIds.map H → g.policyIds = w.policyIds))
    (hacc : collectAndValidateFullRun H v p dirty f db = true) :
    (∀ r, r ∈ f.expected ↔ r ∈ db.payloads ∧ ∃ x ∈ db.domains, x.1 = r.domain ∧ staleName x.2 = false) ∧
    (v = newVariant → f.expected.length = dirty - p.staleCount → db.payloads.Perm f.expected ∧ ∀ x ∈ db.domains, staleName x.2 = false) := by
  unfold collectAndValidateFullRun at hacc
  simp only [Bool.and_eq_true, beq_iff_eq] at hacc
  obtain ⟨⟨⟨⟨h1, h2⟩, h3⟩, h4⟩, h5⟩ := hacc
  unfold validateActivePayloads at h1
  rw [validate_iff] at h1
  have heq : byDomain (joined db false) = byDomain f.expected := by
    have hsub : ∀ g ∈ byDomain (joined db false), g ∈ db.payloads := by
      intro g hg
      have := (byDomain_perm _).mem_iff.1 hg
      rw [joined_eq db false hdom] at this
      exact (List.mem_filter.1 this).1
    have hexp : ∀ w ∈ byDomain f.expected, w ∈ f.expected := fun w hw => (byDomain_perm _).mem_iff.1 hw
    revert h1 hsub hexp
    generalize byDomain (joined db false) = gs
    generalize byDomain f.expected = ws
    intro h1
    induction h1 with
    | nil => intros; rfl
    | @cons g w gs ws hgw _ ih =>
      intro hsub hexp
      have hc := hH g (hsub g List.mem_cons_self) w (hexp w List.mem_cons_self)
      have e : g = w := by
        have e1 := hgw.1
        have e2 := hc.1 hgw.2.1
        have e3 := hc.2 hgw.2.2.2.1
        cases g; cases w; simp_all
      rw [e, ih (fun g hg => hsub g (List.mem_cons_of_mem _ hg)) (fun w hw => hexp w (List.mem_cons_of_mem _ hw))]
  have hperm : (joined db false).Perm f.expected := by
    have := (byDomain_perm (joined db false)).symm.trans (heq ▸ byDomain_perm f.expected)
    exact this
  refine ⟨?_, ?_⟩
  · intro r
    rw [← hperm.mem_iff, joined_eq db false hdom, List.mem_filter, named_iff]
  · rintro rfl hlen
    have hl := hperm.length_eq
    simp only [newVariant] at h2 h5
    have hfull : joined db false = db.payloads := by
      rw [joined_eq db false hdom] at hl ⊢
      exact List.filter_sublist.eq_of_length (by simp at h2; omega)
    refine ⟨hfull ▸ hperm, ?_⟩
    intro x hx
    have : db.domains.filter (fun x => staleName x.2) = [] := List.length_eq_zero_iff.1 (by simpa using h5)
    rw [List.filter_eq_nil_iff] at this
    simpa using this x hx

/-- C193: every run of the new variant is accepted, for every workload. -/
theorem C193_new (H : Bytes → Bytes) (dirty : Nat) (skew : Skew) (balance : Nat) (hd : 20480 ≤ dirty) (hd' : dirty ≤ 2 ^ 60) (hb : balance ≤ 75) (fuel chunk n : Nat) (hf : 4 * dirty < fuel)
    (hc : 0 < chunk) (hn : dirty < n) : ∃ p f db', plan dirty skew balance = some p ∧ build p = some f ∧ recomputeDirty fuel chunk n (load f) = some db' ∧
      collectAndValidateFullRun H newVariant p dirty f db' = true := by
  obtain ⟨p, f, db', h1, h2, h3, h4, h5, h6, _⟩ := C192_expected dirty skew balance hd hd' hb fuel chunk n hf hc hn
  obtain ⟨p', f', s, e1, e2, g, hs, hsum, _⟩ := fixture_good dirty skew balance hd hd' hb
  rw [h1] at e1; cases e1
  rw [h2] at e2; cases e2
  obtain ⟨k1, k2⟩ := recompute_keys fuel chunk n h3
  rw [load_eq g] at k1 k2
  have hp := perm_of_mem h5 (k1 g.ndp) g.nde
  have hdn := k2 g.ndd
  refine ⟨p, f, db', h1, h2, h3, ?_⟩
  have hmem : ∀ r ∈ db'.payloads, named db' false r = true := by
    intro r hr
    obtain ⟨x, hx, hxe, hxs⟩ := g.expdom r ((h5 r).1 hr)
    exact (named_iff _ _ _).2 ⟨x, (h6 x).2 ⟨hx, hxs⟩, hxe, hxs⟩
  have hj0 : joined db' false = db'.payloads := by
    rw [joined_eq _ _ hdn, List.filter_eq_self]
    exact hmem
  have hj1 : joined db' true = [] := by
    rw [joined_eq _ _ hdn, List.filter_eq_nil_iff]
    intro r _ hr
    obtain ⟨x, hx, _, hxs⟩ := (named_iff _ _ _).1 hr
    rw [((h6 x).1 hx).2] at hxs
    cases hxs
  have hstale : db'.domains.filter (fun x => staleName x.2) = [] := by
    rw [List.filter_eq_nil_iff]
    intro x hx
    rw [((h6 x).1 hx).2]
    simp
  have hdl : db'.domains.length = p.certOnlyCount + p.mixedCount := by
    have : db'.domains.Perm (f.domains.filter (fun x => !staleName x.2)) := by
      refine (List.perm_ext_iff_of_nodup (List.Nodup.of_map _ hdn) ((List.Nodup.of_map _ g.ndd).filter _)).2 ?_
      intro x
      rw [h6 x, List.mem_filter]
      simp
    rw [this.length_eq]
    have h7 := List.length_eq_length_filter_add (l := f.domains) (fun x => staleName x.2)
    have h8 := g.lenS
    have h9 := g.lenD
    omega
  unfold collectAndValidateFullRun validateActivePayloads
  rw [hj0, hj1, hstale, hdl, byDomain_eq hp (k1 g.ndp), (validate_iff H _ _).2 (same_refl H _), hp.length_eq, g.lenE]
  have : dirty - p.staleCount = p.certOnlyCount + p.mixedCount := by omega
  simp [newVariant, this]

/-- What the old procedure computes for the fixture. -/
theorem old_rows {f : Files} {a m s : Nat} (g : Good f a m s) (fuel : Nat) (hf : 4 * (a + m) < fuel) : ∃ AB : Bytes → List Cert × List Cert,
    (∀ d, oldRows fuel (load f) d = some (groupRow d (leftJoin (AB d).1 (AB d).2) ++ groupRow d (rightJoin (AB d).1 (AB d).2)).eraseDups) ∧
    ∀ d, (AB d).1.Nodup ∧ (AB d).2.Nodup ∧ (∀ c, c ∈ (AB d).1 ↔ InClosure f.certs f.domainCerts d c) ∧ (∀ c, c ∈ (AB d).2 ↔ InClosure f.policies f.domainPolicies d c) ∧
      IsAgg f.certs f.domainCerts d (glue (AB d).1) ∧ IsAgg f.policies f.domainPolicies d (glue (AB d).2) := by
  have hC := g.lenC
  have hP := g.lenP
  have key : ∀ d, ∃ AB : List Cert × List Cert, oldRows fuel (load f) d = some (groupRow d (leftJoin AB.1 AB.2) ++ groupRow d (rightJoin AB.1 AB.2)).eraseDups ∧
      AB.1.Nodup ∧ AB.2.Nodup ∧ (∀ c, c ∈ AB.1 ↔ InClosure f.certs f.domainCerts d c) ∧ (∀ c, c ∈ AB.2 ↔ InClosure f.policies f.domainPolicies d c) ∧
      IsAgg f.certs f.domainCerts d (glue AB.1) ∧ IsAgg f.policies f.domainPolicies d (glue AB.2) := by
    intro d
    obtain ⟨A, a1, a2, a3, a4⟩ := closureOf_spec f.certs f.domainCerts g.tabC.ndid d fuel (by omega)
    obtain ⟨B, b1, b2, b3, b4⟩ := closureOf_spec f.policies f.domainPolicies g.tabP.ndid d fuel (by omega)
    refine ⟨(A, B), ?_, a2, b2, a3, b3, a4, b4⟩
    rw [load_eq g]
    unfold oldRows
    dsimp only
    rw [a1, b1]
  choose AB h using key
  exact ⟨AB, fun d => (h d).1, fun d => (h d).2⟩

theorem payload_ext {a b : Payload} (h1 : a.domain = b.domain) (h2 : a.certIds = b.certIds) (h3 : a.policyIds = b.policyIds) : a = b := by
  cases a; cases b; cases h1; cases h2; cases h3; rfl

theorem glue_none {A : List Cert} : glue A = none ↔ A = [] := by
  unfold glue
  split <;> simp_all

/-- C193: without policies (`-balance 0`) every run of the old variant is accepted too. -/
theorem C193_old_partial (H : Bytes → Bytes) (dirty : Nat) (skew : Skew) (hd : 20480 ≤ dirty) (hd' : dirty ≤ 2 ^ 60) (fuel : Nat) (hf : 4 * dirty < fuel) : ∃ p f db', plan dirty skew 0 = some p ∧
    build p = some f ∧ runOld fuel (load f) = some db' ∧ collectAndValidateFullRun H oldVariant p dirty f db' = true := by
  obtain ⟨p, f, s, h1, h2, g, hs, hsum, hm⟩ := fixture_good dirty skew 0 hd hd' (by omega)
  have hm0 : p.mixedCount = 0 := by rw [hm]; unfold mixedDomainsForBalance; simp
  obtain ⟨AB, r1, r2⟩ := old_rows g fuel (by omega)
  have hpol : f.policies = [] := List.length_eq_zero_iff.1 (by rw [g.lenP, hm0])
  have hB : ∀ d, (AB d).2 = [] := by
    intro d
    rw [List.eq_nil_iff_forall_not_mem]
    intro c hc
    have := closure_mem (((r2 d).2.2.2.1 c).1 hc)
    rw [hpol] at this
    cases this
  have hrun := runOld_eq fuel (load f) _ r1
  have hrow : ∀ d, (groupRow d (leftJoin (AB d).1 (AB d).2) ++ groupRow d (rightJoin (AB d).1 (AB d).2)).eraseDups = if (AB d).1 = [] then [] else [⟨d, glue (AB d).1, none⟩] := by
    intro d
    rw [hB d]
    exact left_only d _
  have hmem : ∀ r, r ∈ allOld (load f) (fun d => (groupRow d (leftJoin (AB d).1 (AB d).2) ++ groupRow d (rightJoin (AB d).1 (AB d).2)).eraseDups) ↔ r ∈ f.expected := by
    intro r
    rw [mem_allOld, load_eq g]
    dsimp only
    rw [g.dirty]
    constructor
    · rintro ⟨y, hy, hr⟩
      obtain ⟨x, hx, rfl⟩ := List.mem_map.1 hy
      dsimp only at hr
      rw [hrow] at hr
      split at hr
      · cases hr
      · rename_i hne
        rw [List.mem_singleton] at hr
        subst hr
        rcases g.kind x hx with ⟨r', hr', he⟩ | ⟨_, b1, _⟩
        · obtain ⟨_, e1, e2⟩ := g.exp r' hr'
          rw [he] at e1 e2
          have u1 := isAgg_unique (fun _ => Iff.rfl) (fun _ => Iff.rfl) e1 (r2 x.1).2.2.2.2.1
          have u2 := isAgg_unique (fun _ => Iff.rfl) (fun _ => Iff.rfl) e2 (r2 x.1).2.2.2.2.2
          rw [hB, glue_none.2 rfl] at u2
          have : r' = ⟨x.1, glue (AB x.1).1, none⟩ := payload_ext he u1 u2
          exact this ▸ hr'
        · have := isAgg_unique (fun _ => Iff.rfl) (fun _ => Iff.rfl) (r2 x.1).2.2.2.2.1 (isAgg_none b1)
          exact absurd (glue_none.1 this) hne
    · intro hr
      obtain ⟨x, hx, hxe, _⟩ := g.expdom r hr
      refine ⟨(x.1, false), List.mem_map.2 ⟨x, hx, rfl⟩, ?_⟩
      dsimp only
      rw [hrow]
      obtain ⟨e0, e1, e2⟩ := g.exp r hr
      rw [← hxe] at e1 e2
      have u1 := isAgg_unique (fun _ => Iff.rfl) (fun _ => Iff.rfl) e1 (r2 x.1).2.2.2.2.1
      have u2 := isAgg_unique (fun _ => Iff.rfl) (fun _ => Iff.rfl) e2 (r2 x.1).2.2.2.2.2
      rw [hB, glue_none.2 rfl] at u2
      rw [if_neg (fun h => e0 (by rw [u1]; exact glue_none.2 h)), List.mem_singleton]
      exact payload_ext hxe.symm u1 u2
  refine ⟨p, f, _, h1, h2, hrun, ?_⟩
  set rows := allOld (load f) (fun d => (groupRow d (leftJoin (AB d).1 (AB d).2) ++ groupRow d (rightJoin (AB d).1 (AB d).2)).eraseDups) with hrows
  have hstaleNe : ∀ r ∈ f.payloads, ∀ w ∈ f.expected, w.domain ≠ r.domain := by
    intro r hr w hw e
    obtain ⟨x, hx, hxe, hxs⟩ := g.pay r hr
    obtain ⟨y, hy, hye, hys⟩ := g.expdom w hw
    have : y = x := List.inj_on_of_nodup_map g.ndd hy hx (hye.trans (e.trans hxe.symm))
    rw [this, hxs] at hys
    cases hys
  have hpl : (load f).payloads = f.payloads := by rw [load_eq g]
  have hdl : (load f).domains = f.domains := by rw [load_eq g]
  have hnd : ((replaceInto Payload.domain (load f).payloads rows).map Payload.domain).Nodup := replaceInto_nodup Payload.domain rows _ (by rw [hpl]; exact g.ndp)
  have hall : (replaceInto Payload.domain (load f).payloads rows).Perm (f.expected ++ f.payloads) := by
    refine perm_of_mem ?_ hnd ?_
    · intro r
      rw [mem_replaceInto_iff Payload.domain rows _ r (fun x hx y hy e => List.inj_on_of_nodup_map g.nde ((hmem x).1 hx) ((hmem y).1 hy) e), hpl, hmem, List.mem_append]
      constructor
      · rintro (h | ⟨h, _⟩)
        · exact Or.inl h
        · exact Or.inr h
      · rintro (h | h)
        · exact Or.inl h
        · exact Or.inr ⟨h, fun x hx => hstaleNe r h x ((hmem x).1 hx)⟩
    · rw [List.map_append, List.nodup_append]
      refine ⟨g.nde, g.ndp, ?_⟩
      intro x hx y hy e
      obtain ⟨w, hw, rfl⟩ := List.mem_map.1 hx
      obtain ⟨r, hr, rfl⟩ := List.mem_map.1 hy
      exact hstaleNe r hr w hw e
  have hexpN : ∀ b, ∀ r ∈ f.expected, named { load f with payloads := replaceInto Payload.domain (load f).payloads rows } b r = !b := by
    intro b r hr
    obtain ⟨x, hx, hxe, hxs⟩ := g.expdom r hr
    rw [Bool.eq_iff_iff, named_iff]
    dsimp only
    rw [hdl]
    constructor
    · rintro ⟨y, hy, hye, hys⟩
      have : y = x := List.inj_on_of_nodup_map g.ndd hy hx (hye.trans hxe.symm)
      rw [this, hxs] at hys
      rw [← hys]; rfl
    · intro hb
      refine ⟨x, hx, hxe, ?_⟩
      rw [hxs]; cases b
      · rfl
      · cases hb
  have hpayN : ∀ b, ∀ r ∈ f.payloads, named { load f with payloads := replaceInto Payload.domain (load f).payloads rows } b r = b := by
    intro b r hr
    obtain ⟨x, hx, hxe, hxs⟩ := g.pay r hr
    rw [Bool.eq_iff_iff, named_iff]
    dsimp only
    rw [hdl]
    constructor
    · rintro ⟨y, hy, hye, hys⟩
      have : y = x := List.inj_on_of_nodup_map g.ndd hy hx (hye.trans hxe.symm)
      rw [this, hxs] at hys
      exact hys.symm
    · intro hb
      exact ⟨x, hx, hxe, by rw [hxs, hb]⟩
  have hj : ∀ b, (joined { load f with payloads := replaceInto Payload.domain (load f).payloads rows } b).Perm (if b then f.payloads else f.expected) := by
    intro b
    rw [joined_eq _ _ (by dsimp only; rw [hdl]; exact g.ndd)]
    refine (hall.filter _).trans ?_
    rw [List.filter_append]
    cases b with
    | false =>
      rw [List.filter_eq_self.2 (fun r hr => hexpN false r hr), List.filter_eq_nil_iff.2 (fun r hr => by rw [hpayN false r hr]; simp)]
      simp
    | true =>
      rw [List.filter_eq_self.2 (fun r hr => hpayN true r hr), List.filter_eq_nil_iff.2 (fun r hr => by rw [hexpN true r hr]; simp)]
      simp
  unfold collectAndValidateFullRun validateActivePayloads
  dsimp only
  have hj0 := hj false
  rw [if_neg (by simp)] at hj0
  rw [byDomain_eq hj0 ((hj0.map Payload.domain).nodup_iff.2 g.nde)]
  rw [(validate_iff H _ _).2 (same_refl H _), (hj true).length_eq, hall.length_eq, hdl, g.lenS, g.lenD]
  have := g.lenE
  have := g.lenPay
  simp only [oldVariant, List.length_append, Bool.and_eq_true, beq_iff_eq, if_true, Bool.false_eq_true, if_false]
  refine ⟨⟨⟨⟨trivial, ?_⟩, ?_⟩, ?_⟩, ?_⟩ <;> omega

/-- C193 does not hold: with policies (`-balance` of 1 to 75) every run of the old variant is rejected, so that the benchmark cannot be completed. The old procedure joins the certificates of
a domain with its policies, so that every ID is listed as many times as there are IDs of the other kind. -/
theorem C193_old_violated (H : Bytes → Bytes) (dirty : Nat) (skew : Skew) (balance : Nat) (hd : 20480 ≤ dirty) (hd' : dirty ≤ 2 ^ 60) (h0 : 0 < balance) (hb : balance ≤ 75) (fuel : Nat)
    (hf : 4 * dirty < fuel) : ∃ p f db', plan dirty skew balance = some p ∧ build p = some f ∧ runOld fuel (load f) = some db' ∧
      collectAndValidateFullRun H oldVariant p dirty f db' = false := by
  obtain ⟨p, f, s, h1, h2, g, hs, hsum, hm⟩ := fixture_good dirty skew balance hd hd' hb
  obtain ⟨AB, r1, r2⟩ := old_rows g fuel (by omega)
  have hrun := runOld_eq fuel (load f) _ r1
  refine ⟨p, f, _, h1, h2, hrun, ?_⟩
  have hm1 : 0 < p.mixedCount := by
    rw [hm]
    have hact : 20000 ≤ dirty - dirty * 5 / 1000 := by omega
    have := (mixed_spec (dirty - dirty * 5 / 1000) balance hb)
    have h3 : 20000 * 1 ≤ (dirty - dirty * 5 / 1000) * balance := Nat.mul_le_mul hact h0
    omega
  obtain ⟨r, hr⟩ := List.exists_mem_of_length_pos (l := f.expected.filter (fun r => r.policyIds.isSome)) (by rw [g.polE]; exact hm1)
  obtain ⟨hr, hsome⟩ := List.mem_filter.1 hr
  obtain ⟨v, hv⟩ := Option.isSome_iff_exists.1 hsome
  have hvl := g.polLen r hr v hv
  obtain ⟨e0, e1, e2⟩ := g.exp r hr
  obtain ⟨a2, b2, a3, b3, a4, b4⟩ := r2 r.domain
  have u1 := isAgg_unique (fun _ => Iff.rfl) (fun _ => Iff.rfl) e1 a4
  have u2 := isAgg_unique (fun _ => Iff.rfl) (fun _ => Iff.rfl) e2 b4
  have hA : (AB r.domain).1 ≠ [] := fun h => e0 (by rw [u1]; exact glue_none.2 h)
  have hB : (AB r.domain).2 ≠ [] := fun h => by
    rw [glue_none.2 h, hv] at u2
    cases u2
  have h32 : ∀ {pre : Byte} {sd ord : Nat} {cs : List Cert} {ls : List (Bytes × Bytes)} {d : Bytes} {X : List Cert}, Tab pre sd ord cs ls → (∀ c, c ∈ X ↔ InClosure cs ls d c) → ∀ c ∈ X, c.id.length = 32 := by
    intro pre sd ord cs ls d X t hX c hc
    obtain ⟨n, _, e⟩ := t.cid c (closure_mem ((hX c).1 hc))
    rw [e, linear_length]
  have hglue : ∀ X : List Cert, (∀ c ∈ X, c.id.length = 32) → colLen (glue X) = 32 * X.length := by
    intro X hX
    unfold glue colLen
    split
    · rename_i h; subst h; rfl
    · simp only [Option.map_some, Option.getD_some, Ids.idsToBytes]
      rw [List.length_flatten, ((List.mergeSort_perm _ _).map List.length).sum_eq]
      clear u1 u2 a4 b4
      induction X with
      | nil => rfl
      | cons c X ih =>
        have hc := hX c List.mem_cons_self
        by_cases hXe : X = []
        · subst hXe; simp [hc]
        · have := ih (fun c hc => hX c (List.mem_cons_of_mem _ hc)) hXe
          simp only [List.map_cons, List.sum_cons, List.length_cons] at this ⊢
          omega
  have hA32 := h32 g.tabC a3
  have hlenA := hglue _ hA32
  have hlenB := hglue _ (h32 g.tabP b3)
  rw [← u2, hv] at hlenB
  have hB3 : (AB r.domain).2.length = 3 := by
    have : colLen (some v) = 96 := hvl
    omega
  rw [← u1] at hlenA
  rw [Bool.eq_false_iff]
  intro hacc
  · unfold collectAndValidateFullRun at hacc
    simp only [Bool.and_eq_true, beq_iff_eq] at hacc
    have hv1 := hacc.1.1.1.1
    unfold validateActivePayloads at hv1
    rw [validate_iff] at hv1
    have hfind : ∀ {gs ws : List Payload}, List.Forall₂ (Same H) gs ws → ∀ w ∈ ws, ∃ g ∈ gs, Same H g w := by
      intro gs ws h
      induction h with
      | nil => intro w hw; cases hw
      | cons hgw _ ih =>
        intro w hw
        rcases List.mem_cons.1 hw with rfl | hw
        · exact ⟨_, List.mem_cons_self, hgw⟩
        · obtain ⟨g, hg, h⟩ := ih w hw
          exact ⟨g, List.mem_cons_of_mem _ hg, h⟩
    obtain ⟨q, hq, hsame⟩ := hfind hv1 r ((byDomain_perm _).mem_iff.2 hr)
    have hq := (byDomain_perm _).mem_iff.1 hq
    have hdl : (load f).domains = f.domains := by rw [load_eq g]
    have hpl : (load f).payloads = f.payloads := by rw [load_eq g]
    rw [joined_eq _ _ (by dsimp only; rw [hdl]; exact g.ndd)] at hq
    have hq := (List.mem_filter.1 hq).1
    dsimp only at hq
    rcases mem_replaceInto_sub _ _ _ _ hq with hq | hq
    · rw [hpl] at hq
      obtain ⟨x, hx, hxe, hxs⟩ := g.pay q hq
      obtain ⟨y, hy, hye, hys⟩ := g.expdom r hr
      have : y = x := List.inj_on_of_nodup_map g.ndd hy hx (hye.trans (hsame.1.symm.trans hxe.symm))
      rw [this, hxs] at hys
      cases hys
    · obtain ⟨x, _, hqr⟩ := mem_allOld.1 hq
      have hqd := groupRow_domain hqr
      rw [← hqd, hsame.1] at hqr
      obtain ⟨_, hlen⟩ := both_length r.domain _ _ hA hB hA32 hqr
      have := hsame.2.2.1
      rw [hlen, hlenA, hB3] at this
      have := List.length_pos_iff.2 hA
      omega

/-- The example of the README, `-sizes medium -balance 50`. -/
example (H : Bytes → Bytes) : ∃ p f db', plan 204800 .large 50 = some p ∧ build p = some f ∧ runOld 1000000 (load f) = some db' ∧ collectAndValidateFullRun H oldVariant p 204800 f db' = false :=
  C193_old_violated H 204800 .large 50 (by decide) (by decide) (by decide) (by decide) 1000000 (by decide)

example (H : Bytes → Bytes) : ∃ p f db', plan 20480 .no 0 = some p ∧ build p = some f ∧ runOld 100000 (load f) = some db' ∧ collectAndValidateFullRun H oldVariant p 20480 f db' = true :=
  C193_old_partial H 20480 .no (by decide) (by decide) 100000 (by decide)

/-- The hypotheses of `C193_sound` are met by the runs of the new variant. -/
example : ∃ p f db', plan 20480 .little 75 = some p ∧ build p = some f ∧ (db'.domains.map Prod.fst).Nodup ∧ (db'.payloads.map Payload.domain).Nodup ∧
    f.expected.length = 20480 - p.staleCount ∧ collectAndValidateFullRun id newVariant p 20480 f db' = true := by
  obtain ⟨p, f, db', h1, h2, h3, h4⟩ := C193_new id 20480 .little 75 (by decide) (by decide) (by decide) 100000 1000 30000 (by decide) (by decide) (by decide)
  obtain ⟨p', f', s, e1, e2, g, hs, hsum, _⟩ := fixture_good 20480 .little 75 (by decide) (by decide) (by decide)
  rw [h1] at e1; cases e1
  rw [h2] at e2; cases e2
  obtain ⟨k1, k2⟩ := recompute_keys _ _ _ h3
  rw [load_eq g] at k1 k2
  exact ⟨p, f, db', h1, h2, k2 g.ndd, k1 g.ndp, by rw [g.lenE]; omega, h4⟩

end Fpki.Bench
