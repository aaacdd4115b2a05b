import Verif.Lemmas.Bridge
import Verif.Props.Batch

/-!
# C76: the link between the two pipelines of `ingest`
-/
namespace Fpki.Bridge

variable {γ : Type} {shard : γ → Nat} {workers : Nat} {work : List (List γ)} {s : State γ}

/-- Some execution reaches the state; `work` are the certificates that the stages that make certificates would emit. -/
def Reach (shard : γ → Nat) (workers : Nat) (work : List (List γ)) (s : State γ) : Prop :=
  ∃ es, (init workers work).run shard workers es = some s

/-- No goroutine can take a step, unless some stage fails. -/
def Stuck (shard : γ → Nat) (workers : Nat) (s : State γ) : Prop := ∀ e : Act, e.failure = false → s.exec shard workers e = none

/-- Stage `i` that makes certificates has ended and reported these errors (none: nil). -/
def Reported (s : State γ) (i : Nat) (errors : List (Src × Nat)) : Prop :=
  ∃ p, s.prods[i]? = some p ∧ p.phase = .ended ∧ p.found = errors

/-- A goroutine is blocked sending a certificate to a DB stage that has stopped. -/
def Blocked (s : State γ) (i k : Nat) : Prop :=
  ∃ c ks d, s.fwds[i]? = some (.sending c ks) ∧ k ∈ ks ∧ s.dbs[k]? = some d ∧ d.phase ≠ .run

theorem Reach.routed (hw : 0 < workers) (h : Reach shard workers work s) : Routed shard workers work s := by
  obtain ⟨es, h⟩ := h
  exact run_inv (routed_step hw) (routed_init work) h

theorem Reach.all (h : Reach shard workers work s) : More s ∧ Errs s ∧ Sized work.length workers s := by
  obtain ⟨es, h⟩ := h
  exact run_inv more_step ⟨more_init workers work, errs_init workers work, sized_init workers work⟩ h

/-- At any moment of any execution, with or without failures: stage `i` has emitted a first part of its certificates, and every DB stage
has received from it, in order and once each, the emitted certificates of its worker, except at most the last one (which is on its way). -/
theorem C76_routing (hw : 0 < workers) (h : Reach shard workers work s) {i : Nat} {w : List γ} (hi : work[i]? = some w) :
    ∃ sent rest, w = sent ++ rest ∧ ∀ (k : Nat) (d : Db γ), s.dbs[k]? = some d →
      ∃ way, way.length ≤ 1 ∧ d.from i ++ way = sent.filter fun c => decide (k = shard c ∨ k = shard c + workers) := by
  have hr := h.routed hw
  obtain ⟨-, -, hz⟩ := h.all
  have hl := lt_of_get hi
  have hl1 : i < s.prods.length := by rw [hz.prods]; exact hl
  have hl2 : i < s.fwds.length := by rw [hz.fwds]; exact hl
  have h1 : s.prods[i]? = some s.prods[i] := List.getElem?_eq_getElem hl1
  have h2 : s.fwds[i]? = some s.fwds[i] := List.getElem?_eq_getElem hl2
  have h3 := hr.work _ _ h1
  rw [hi] at h3
  refine ⟨_, _, Option.some.inj h3, fun k d hd => ⟨(s.fwds[i]).inflight k, ?_, ?_⟩⟩
  · unfold Fwd.inflight; split
    · split <;> simp
    · simp
  · rw [hr.eq _ _ _ _ _ h1 h2 hd]
    simp [route]

/-- Nothing is received that was not emitted. -/
theorem C76_nothing_else (h : Reach shard workers work s) {k : Nat} {d : Db γ} (hd : s.dbs[k]? = some d) : ∀ x ∈ d.recv, x.1 < work.length := by
  have : Sized work.length workers s ∧ ∀ (k : Nat) (d : Db γ), s.dbs[k]? = some d → ∀ x ∈ d.recv, x.1 < work.length := by
    obtain ⟨es, h⟩ := h
    refine run_inv (P := fun s => Sized work.length workers s ∧ ∀ (k : Nat) (d : Db γ), s.dbs[k]? = some d → ∀ x ∈ d.recv, x.1 < work.length)
      (fun s e s' hi hs => ⟨sized_step _ _ _ hi.1 hs, ?_⟩) ⟨sized_init _ _, fun k d hd => ?_⟩ h
    · cases hs with
      | deliver hf hd hk =>
        intro j d hj x hx
        rcases get_set hj with ⟨rfl, rfl⟩ | ⟨-, hj⟩
        · rcases List.mem_append.mp hx with hx | hx
          · exact hi.2 _ _ hd x hx
          · simp at hx; subst hx; have := lt_of_get hf; rw [hi.1.fwds] at this; exact this
        · exact hi.2 _ _ hj x hx
      | dbFail hd | dbEnd hd _ | dbSend hd _ | dbClose hd =>
        intro j d hj x hx
        rcases get_set hj with ⟨rfl, rfl⟩ | ⟨-, hj⟩
        · exact hi.2 _ _ hd x hx
        · exact hi.2 _ _ hj x hx
      | _ => exact hi.2
    · intro x hx
      have := (List.mem_replicate.mp (List.mem_of_getElem? hd)).2
      subst this
      simp at hx
  exact this.2 k d hd

/-- Every execution is finite: from the start, no more steps than a bound are possible. -/
theorem C76_terminates (shard : γ → Nat) (workers : Nat) (work : List (List γ)) :
    ∃ N, ∀ es s, (init workers work).run shard workers es = some s → es.length ≤ N := by
  refine ⟨(init workers work).weight, fun es s h => ?_⟩
  have := run_weight h
  omega

theorem stuck_step (hq : Stuck shard workers s) {e : Act} (he : e.failure = false) {s' : State γ} (h : Step shard workers s e s') : False := by
  have := hq e he
  rw [step_iff.mpr h] at this
  cases this

/-- If no forwarder is blocked, a stuck state is the end of everything. -/
theorem stuck_end (h : Reach shard workers work s) (hsh : ∀ c, shard c < workers) (hq : Stuck shard workers s) (hb : ∀ i k, ¬ Blocked s i k) :
    (∀ p ∈ s.prods, p.phase = .ended) ∧ (∀ d ∈ s.dbs, d.phase = .closed) ∧ (∀ f ∈ s.fwds, f = .ended) := by
  obtain ⟨hm, he, hz⟩ := h.all
  have hr : ∃ es, (init workers work).run shard workers es = some s := h
  have hnosend : ∀ (i : Nat) c ks, s.fwds[i]? ≠ some (.sending c ks) := by
    intro i c ks hf
    cases ks with
    | nil => exact stuck_step hq (e := .fNext i) rfl (.fNext hf)
    | cons k ks =>
      have hk : k < s.dbs.length := by
        rw [hz.dbs]
        have hw : 0 < workers := Nat.lt_of_le_of_lt (Nat.zero_le _) (hsh c)
        have := ((Reach.routed hw h).nodup _ _ _ hf).2 k (.head _)
        have := hsh c
        simp [route] at *
        omega
      have hd := List.getElem?_eq_getElem hk
      by_cases hp : s.dbs[k].phase = .run
      · cases hdk : s.dbs[k] with
        | mk ph er rc =>
          rw [hdk] at hd hp
          simp only at hp
          subst hp
          exact stuck_step hq (e := .deliver i k) rfl (.deliver hf hd (.head _))
      · exact hb i k ⟨c, _, _, hf, .head _, hd, hp⟩
  have hprod : ∀ (i : Nat) p, s.prods[i]? = some p → p.phase ≠ .run := by
    intro i p hp hrun
    obtain ⟨t, st, ph, f⟩ := p
    simp only at hrun; subst hrun
    cases t with
    | nil => exact stuck_step hq (e := .eof i) rfl (.eof hp)
    | cons c cs =>
      have hl := lt_of_get hp
      rw [hz.prods, ← hz.fwds] at hl
      have hf := List.getElem?_eq_getElem hl
      cases hfi : s.fwds[i] with
      | idle => rw [hfi] at hf; exact stuck_step hq (e := .emit i) rfl (.emit hp hf)
      | sending c ks => rw [hfi] at hf; exact hnosend _ _ _ hf
      | ended => rw [hfi] at hf; exact hm.fend _ _ hp hf rfl
  have hfwd : ∀ f ∈ s.fwds, f = .ended := by
    intro f hf
    obtain ⟨i, hi, rfl⟩ := List.mem_iff_getElem.mp hf
    have hg := List.getElem?_eq_getElem hi
    cases hfi : s.fwds[i] with
    | idle =>
      rw [hfi] at hg
      have hl := hi
      rw [hz.fwds, ← hz.prods] at hl
      have hp := List.getElem?_eq_getElem hl
      exact (stuck_step hq (e := .fEnd i) rfl (.fEnd hp hg (hprod _ _ hp))).elim
    | sending c ks => rw [hfi] at hg; exact (hnosend _ _ _ hg).elim
    | ended => rfl
  have hdata : s.dataClosed = true := by
    by_contra hc
    exact stuck_step hq (e := .closeData) rfl (.closeData hfwd (by simpa using hc))
  have hdb : ∀ (k : Nat) d, s.dbs[k]? = some d → d.phase = .closed := by
    intro k d hd
    obtain ⟨ph, er, rc⟩ := d
    cases ph with
    | run => exact (stuck_step hq (e := .dbEnd k) rfl (.dbEnd hd hdata)).elim
    | quiet => exact (stuck_step hq (e := .dbClose k) rfl (.dbClose hd)).elim
    | closed => rfl
    | failed x =>
      exfalso
      have hl := lt_of_get hd
      rw [hz.dbs, ← hz.rdrs] at hl
      have hr := List.getElem?_eq_getElem hl
      cases hrk : s.rdrs[k] with
      | idle => rw [hrk] at hr; exact stuck_step hq (e := .dbSend k) rfl (.dbSend hd hr)
      | sending y is =>
        rw [hrk] at hr
        obtain ⟨d', hd', -, hph⟩ := he.reading _ _ _ hr
        rw [hd] at hd'; cases hd'
        rcases hph with h | h <;> cases h
      | done =>
        rw [hrk] at hr
        obtain ⟨d', hd', hph⟩ := he.doneClosed _ hr
        rw [hd] at hd'; cases hd'; cases hph
  have hrd : ∀ (k : Nat) r, s.rdrs[k]? = some r → r = .done ∨ ∃ e i is, r = .sending e (i :: is) ∧ ∀ j ∈ i :: is, ∀ p, s.prods[j]? = some p → p.phase = .ended := by
    intro k r hr
    cases r with
    | done => exact .inl rfl
    | idle =>
      have hl := lt_of_get hr
      rw [hz.rdrs, ← hz.dbs] at hl
      have hd := List.getElem?_eq_getElem hl
      have hph := hdb _ _ hd
      cases hdk : s.dbs[k] with
      | mk ph er rc =>
        rw [hdk] at hd hph
        simp only at hph; subst hph
        exact (stuck_step hq (e := .rEnd k) rfl (.rEnd hd hr)).elim
    | sending x is =>
      cases is with
      | nil => exact (stuck_step hq (e := .rNext k) rfl (.rNext hr)).elim
      | cons i is =>
        refine .inr ⟨_, _, _, rfl, fun j hj p hp => ?_⟩
        by_contra hn
        exact stuck_step hq (e := .errTo k j) rfl (.errTo hr hp hj hn)
  refine ⟨fun p hp => ?_, fun d hd => ?_, hfwd⟩
  · obtain ⟨j, hj, rfl⟩ := List.mem_iff_getElem.mp hp
    have hg := List.getElem?_eq_getElem hj
    by_contra hne
    have hcl : s.prods[j].phase = .closing := by
      cases hph : s.prods[j].phase with
      | run => exact absurd hph (hprod _ _ hg)
      | closing => rfl
      | ended => exact absurd hph hne
    -- an error that has reached a reader is in j's list
    have hin : ∀ (k : Nat) d x, s.dbs[k]? = some d → d.err = some x → (.db k, x) ∈ s.prods[j].found := by
      intro k d x hd hx
      rcases he.way k d x hd hx with h1 | ⟨is, h1, h2⟩ | h1
      · rw [hdb _ _ hd] at h1; cases h1
      · rcases h2 j _ hg with h3 | h3
        · rcases hrd _ _ h1 with h4 | ⟨e, i, is', h4, h5⟩
          · cases h4
          · cases h4
            exact absurd (h5 j h3 _ hg) hne
        · exact h3
      · exact h1 j _ hg
    have herr : s.errsClosed = false := by
      by_contra hc
      cases hpj : s.prods[j] with
      | mk t st ph f =>
        rw [hpj] at hg hcl
        simp only at hcl; subst hcl
        exact stuck_step hq (e := .pEnd j) rfl (.pEnd hg (by simpa using hc))
    have hnd : ¬ ∀ r ∈ s.rdrs, r = .done := fun hc => stuck_step hq (e := .closeErrs) rfl (.closeErrs hc herr)
    have ⟨r, hr, hrne⟩ : ∃ r, r ∈ s.rdrs ∧ r ≠ .done := by
      by_contra hc
      exact hnd fun r hr => by_contra fun h => hc ⟨r, hr, h⟩
    obtain ⟨k, hk, rfl⟩ := List.mem_iff_getElem.mp hr
    have hgk := List.getElem?_eq_getElem hk
    rcases hrd _ _ hgk with h1 | ⟨x, i, is, h1, h2⟩
    · exact hrne h1
    rw [h1] at hgk
    obtain ⟨q, hq', hqx⟩ := (hm.pend _ _ _ hgk).2 i (.head _)
    have hqe := h2 i (.head _) q hq'
    obtain ⟨d, hd, hx, -⟩ := he.reading _ _ _ hgk
    have m1 := hin k d x hd hx
    rcases hm.two _ _ hq' hqe with h3 | ⟨k', x', h3⟩
    · rw [herr] at h3; cases h3
    obtain ⟨d', hd', hx', -⟩ := he.sound _ _ _ _ hq' h3
    have m2 := hin k' d' x' hd' hx'
    have hkk : k' ≠ k := by rintro rfl; exact hqx _ h3
    have hle := he.one _ _ hg hcl
    match hf : s.prods[j].found, hle, m1, m2 with
    | [], _, m1, _ => cases m1
    | [a], _, m1, m2 =>
      simp only [List.mem_singleton] at m1 m2
      rw [← m2] at m1
      simp at m1
      exact hkk m1.1.symm
    | a :: b :: l, hle, _, _ => simp at hle
  · obtain ⟨k, hk, rfl⟩ := List.mem_iff_getElem.mp hd
    exact hdb _ _ (List.getElem?_eq_getElem hk)

/-- Without failures everything is delivered: when nothing can happen any more, every stage that makes certificates has ended without error, and every DB stage has
ended and received exactly the certificates of its worker, in the order of each emitting stage. -/
theorem C76_delivers (hsh : ∀ c, shard c < workers) (hw : 0 < workers) {es : List Act} (hn : ∀ e ∈ es, e.failure = false)
    (h : (init workers work).run shard workers es = some s) (hq : Stuck shard workers s) :
    (∀ i, i < work.length → Reported s i []) ∧
    (∀ k, k < 2 * workers → ∃ d, s.dbs[k]? = some d ∧ d.phase = .closed ∧
      ∀ (i : Nat) w, work[i]? = some w → d.from i = w.filter fun c => decide (k = shard c ∨ k = shard c + workers)) := by
  have hR : Reach shard workers work s := ⟨es, h⟩
  obtain ⟨hsm, he, hz⟩ := run_inv_of (P := fun s => Smooth s ∧ Errs s ∧ Sized work.length workers s) (Q := fun e => e.failure = false)
    (smooth_step hw) hn ⟨smooth_init _ _, errs_init _ _, sized_init _ _⟩ h
  have hb : ∀ i k, ¬ Blocked s i k := by
    rintro i k ⟨c, ks, d, hf, hk, hd, hp⟩
    have := hsm.data ((hsm.db _ _ hd).2 hp) _ (List.mem_of_getElem? hf)
    cases this
  obtain ⟨h1, h2, h3⟩ := stuck_end hR hsh hq hb
  have hr := hR.routed hw
  refine ⟨fun i hi => ?_, fun k hk => ?_⟩
  · rw [← hz.prods] at hi
    have hg := List.getElem?_eq_getElem hi
    exact ⟨_, hg, h1 _ (List.mem_of_getElem? hg), (hsm.prod _ _ hg).1⟩
  · rw [← hz.dbs] at hk
    have hd := List.getElem?_eq_getElem hk
    refine ⟨_, hd, h2 _ (List.mem_of_getElem? hd), fun i w hi => ?_⟩
    have hl := lt_of_get hi
    have hl1 : i < s.prods.length := by rw [hz.prods]; exact hl
    have hl2 : i < s.fwds.length := by rw [hz.fwds]; exact hl
    have hp : s.prods[i]? = some s.prods[i] := List.getElem?_eq_getElem hl1
    have hf : s.fwds[i]? = some s.fwds[i] := List.getElem?_eq_getElem hl2
    have h4 := hr.eq _ _ _ _ _ hp hf hd
    have h5 := h3 _ (List.mem_of_getElem? hf)
    rw [h5] at h4
    have h6 := hr.work _ _ hp
    rw [hi, (hsm.prod _ _ hp).2 (by rw [h1 _ (List.mem_of_getElem? hp)]; nofun), List.append_nil] at h6
    rw [Option.some.inj h6]
    simpa [Fwd.inflight, route] using h4

/-- A stage that makes certificates reports no error only if no DB stage has failed. -/
theorem C76_error_reported (h : Reach shard workers work s) {i : Nat} (hi : Reported s i []) {k : Nat} {d : Db γ} (hd : s.dbs[k]? = some d) :
    d.err = none := by
  obtain ⟨hm, he, hz⟩ := h.all
  obtain ⟨p, hp, hph, hf⟩ := hi
  have hc := he.endNil _ _ hp hph hf
  by_contra hn
  obtain ⟨x, hx⟩ := Option.ne_none_iff_exists'.mp hn
  have hl := lt_of_get hd
  rw [hz.dbs, ← hz.rdrs] at hl
  have hr := List.getElem?_eq_getElem hl
  rw [he.allDone hc _ (List.mem_of_getElem? hr)] at hr
  rcases he.way k d x hd hx with h1 | ⟨is, h1, -⟩ | h1
  · obtain ⟨d', hd', hph'⟩ := he.doneClosed _ hr
    rw [hd] at hd'; cases hd'
    rw [h1] at hph'; cases hph'
  · rw [hr] at h1; cases h1
  · have := h1 _ _ hp
    rw [hf] at this; cases this

/-- Errors reported as coming from a DB stage are errors of that stage. -/
theorem C76_error_sound (h : Reach shard workers work s) {i : Nat} {errs : List (Src × Nat)} (hi : Reported s i errs) {k x : Nat}
    (hx : (.db k, x) ∈ errs) : ∃ d, s.dbs[k]? = some d ∧ d.err = some x := by
  obtain ⟨-, he, -⟩ := h.all
  obtain ⟨p, hp, -, rfl⟩ := hi
  obtain ⟨d, hd, hx, -⟩ := he.sound _ _ _ _ hp hx
  exact ⟨d, hd, hx⟩

/-- After a failure, `ingest` ends if no goroutine is left blocked on a stopped DB stage: the only way to hang is that. -/
theorem C76_ends_partial (h : Reach shard workers work s) (hsh : ∀ c, shard c < workers) (hq : Stuck shard workers s)
    (hb : ∀ i k, ¬ Blocked s i k) (i : Nat) (hi : i < work.length) : ∃ errs, Reported s i errs := by
  obtain ⟨-, -, hz⟩ := h.all
  rw [← hz.prods] at hi
  have hg := List.getElem?_eq_getElem hi
  exact ⟨_, _, hg, (stuck_end h hsh hq hb).1 _ (List.mem_of_getElem? hg), rfl⟩

/-- A blocked goroutine stays blocked for ever, whatever else happens: the channels to the DB stages are never closed. -/
theorem C76_blocked_forever (h : Reach shard workers work s) {i k : Nat} (hb : Blocked s i k) {es : List Act} {s' : State γ}
    (hr : s.run shard workers es = some s') : Blocked s' i k ∧ s'.dataClosed = false := by
  have key : ∀ s e s', More s ∧ Blocked s i k → Step shard workers s e s' → (Blocked s' i k) := by
    rintro s e s' ⟨hm, c, ks, d, hf, hk, hd, hp⟩ hs
    cases hs with
    | @emit i' _ _ _ _ _ hf' =>
      have : i' ≠ i := by rintro rfl; rw [hf] at hf'; cases hf'
      exact ⟨c, ks, d, get_set_other hf this, hk, hd, hp⟩
    | @deliver i' k' _ _ _ _ hf' hd' hk' =>
      have h1 : k' ≠ k := by rintro rfl; rw [hd] at hd'; cases hd'; exact hp rfl
      by_cases hii : i' = i
      · subst hii
        rw [hf] at hf'; cases hf'
        exact ⟨_, _, d, get_set_self hf, (List.mem_erase_of_ne (Ne.symm h1)).mpr hk, get_set_other hd h1, hp⟩
      · exact ⟨c, ks, d, get_set_other hf hii, hk, get_set_other hd h1, hp⟩
    | @fNext i' _ hf' =>
      have : i' ≠ i := by rintro rfl; rw [hf] at hf'; cases hf'; cases hk
      exact ⟨c, ks, d, get_set_other hf this, hk, hd, hp⟩
    | @fEnd i' _ _ hf' =>
      have : i' ≠ i := by rintro rfl; rw [hf] at hf'; cases hf'
      exact ⟨c, ks, d, get_set_other hf this, hk, hd, hp⟩
    | @dbFail k' _ _ _ hd' =>
      have h1 : k' ≠ k := by rintro rfl; rw [hd] at hd'; cases hd'; exact hp rfl
      exact ⟨c, ks, d, hf, hk, get_set_other hd h1, hp⟩
    | @dbEnd k' _ _ hd' =>
      have h1 : k' ≠ k := by rintro rfl; rw [hd] at hd'; cases hd'; exact hp rfl
      exact ⟨c, ks, d, hf, hk, get_set_other hd h1, hp⟩
    | @dbSend k' _ _ _ hd' =>
      by_cases h1 : k' = k
      · subst h1
        exact ⟨c, ks, _, hf, hk, get_set_self hd, nofun⟩
      · exact ⟨c, ks, d, hf, hk, get_set_other hd h1, hp⟩
    | @dbClose k' _ _ hd' =>
      by_cases h1 : k' = k
      · subst h1
        exact ⟨c, ks, _, hf, hk, get_set_self hd, nofun⟩
      · exact ⟨c, ks, d, hf, hk, get_set_other hd h1, hp⟩
    | _ => exact ⟨c, ks, d, hf, hk, hd, hp⟩
  have h1 := run_inv (P := fun s => (More s ∧ Errs s ∧ Sized work.length workers s) ∧ Blocked s i k)
    (fun s e s' hi hs => ⟨more_step _ _ _ hi.1 hs, key _ _ _ ⟨hi.1.1, hi.2⟩ hs⟩) ⟨h.all, hb⟩ hr
  refine ⟨h1.2, ?_⟩
  by_contra hc
  obtain ⟨c, ks, d, hf, -⟩ := h1.2
  have := h1.1.1.data (by simpa using hc) _ (List.mem_of_getElem? hf)
  cases this

/-- What a user expects: when a DB stage fails, `ingest` ends, with an error. -/
def FailureEnds (shard : γ → Nat) (workers : Nat) (work : List (List γ)) : Prop :=
  ∀ s, Reach shard workers work s → Stuck shard workers s → ∀ i, i < work.length → ∃ errs, Reported s i errs

/-- One certificate is delivered; the batcher fails; the next certificate reaches the domain extractor but not the batcher. -/
def exHang : List Act :=
  [.emit 0, .deliver 0 0, .deliver 0 1, .fNext 0, .emit 0, .dbFail 0 7, .dbSend 0, .errTo 0 0, .rNext 0, .dbClose 0, .rEnd 0, .deliver 0 1]

def exHangEnd : State Nat :=
  ⟨[⟨[], [10, 11], .closing, [(.db 0, 7)]⟩], [.sending 11 [0]], [⟨.closed, some 7, [(0, 10)]⟩, ⟨.run, none, [(0, 10), (0, 11)]⟩], [.done, .idle],
   false, false⟩

theorem exHang_run : (init 1 [[10, 11]]).run (fun _ => 0) 1 exHang = some exHangEnd := by decide +kernel

theorem exHang_stuck : Stuck (fun _ => 0) 1 exHangEnd := by
  intro e he
  have h : ∀ s', ¬ Step (fun _ : Nat => 0) 1 exHangEnd e s' := by
    intro s' hs
    have P : ∀ (i : Nat) p, exHangEnd.prods[i]? = some p → p = ⟨[], [10, 11], .closing, [(.db 0, 7)]⟩ := by
      intro i p h; have := List.mem_of_getElem? h; simpa [exHangEnd] using this
    have F : ∀ (i : Nat) f, exHangEnd.fwds[i]? = some f → f = .sending 11 [0] := by
      intro i f h; have := List.mem_of_getElem? h; simpa [exHangEnd] using this
    have D : ∀ (k : Nat) d, exHangEnd.dbs[k]? = some d → (k = 0 ∧ d.phase = .closed) ∨ (k = 1 ∧ d.phase = .run) := by
      intro k d h
      match k, h with
      | 0, h => cases h; exact .inl ⟨rfl, rfl⟩
      | 1, h => cases h; exact .inr ⟨rfl, rfl⟩
      | k + 2, h => simp [exHangEnd] at h
    have R : ∀ (k : Nat) r, exHangEnd.rdrs[k]? = some r → (k = 0 ∧ r = .done) ∨ (k = 1 ∧ r = .idle) := by
      intro k r h
      match k, h with
      | 0, h => cases h; exact .inl ⟨rfl, rfl⟩
      | 1, h => cases h; exact .inr ⟨rfl, rfl⟩
      | k + 2, h => simp [exHangEnd] at h
    cases hs with
    | emit hp hf => cases F _ _ hf
    | eof hp => cases P _ _ hp
    | fail hp => cases he
    | nilErr hp hc => cases hc
    | pEnd hp hc => cases hc
    | deliver hf hd hk =>
      cases F _ _ hf
      rcases D _ _ hd with ⟨-, h⟩ | ⟨rfl, -⟩
      · cases h
      · simp at hk
    | fNext hf => cases F _ _ hf
    | fEnd hp hf hc => cases F _ _ hf
    | closeData hf hc => cases hf _ (.head _)
    | dbFail hd => cases he
    | dbEnd hd hc => cases hc
    | dbSend hd hr => rcases D _ _ hd with ⟨-, h⟩ | ⟨-, h⟩ <;> cases h
    | dbClose hd => rcases D _ _ hd with ⟨-, h⟩ | ⟨-, h⟩ <;> cases h
    | errTo hr hp hi hn => rcases R _ _ hr with ⟨-, h⟩ | ⟨-, h⟩ <;> cases h
    | rNext hr => rcases R _ _ hr with ⟨-, h⟩ | ⟨-, h⟩ <;> cases h
    | rEnd hd hr =>
      rcases R _ _ hr with ⟨-, h⟩ | ⟨rfl, -⟩
      · cases h
      · rcases D _ _ hd with ⟨h, -⟩ | ⟨-, h⟩ <;> cases h
    | closeErrs hr hc => cases hr _ (.tail _ (.head _))
  cases hx : exHangEnd.exec (fun _ => 0) 1 e with
  | none => rfl
  | some t => exact (h t (step_iff.mp hx)).elim

/-- This is false already with one worker of each kind (the defaults) and two certificates: after the batcher has failed, the goroutine between the pipelines is blocked
sending it the second certificate, the domain extractor waits for more input, the stage that makes certificates waits for the end of the DB stages:
`ingest` hangs. -/
theorem C76_hang_violated : ¬ FailureEnds (fun _ : Nat => 0) 1 [[10, 11]] := by
  intro h
  obtain ⟨errs, p, hp, hph, -⟩ := h _ ⟨_, exHang_run⟩ exHang_stuck 0 (by decide)
  cases hp; cases hph

/-- The blocked goroutine of that state. -/
example : Blocked exHangEnd 0 0 := ⟨11, [0], _, rfl, .head _, rfl, nofun⟩

/-- The shard function of the code satisfies the condition (C20) for numbers of workers that are powers of two. -/
example (id : Bytes) : Batch.shard 4 id < 4 := (Batch.C20_worker_exists_partial 4 id (.inl ⟨2, by decide, rfl⟩)).1

/-- `C76_delivers`: an execution with two certificates, one worker, without failure, to its end. -/
def exGood : List Act :=
  [.emit 0, .deliver 0 1, .deliver 0 0, .fNext 0, .emit 0, .eof 0, .deliver 0 0, .deliver 0 1, .fNext 0, .fEnd 0, .closeData, .dbEnd 1, .dbClose 1,
   .dbEnd 0, .dbClose 0, .rEnd 0, .rEnd 1, .closeErrs, .pEnd 0]

example : ∃ s, (init 1 [[10, 11]]).run (fun _ => 0) 1 exGood = some s ∧ (∀ e ∈ exGood, e.failure = false) ∧ Reported s 0 [] := by
  refine ⟨⟨[⟨[], [10, 11], .ended, []⟩], [.ended], [⟨.closed, none, [(0, 10), (0, 11)]⟩, ⟨.closed, none, [(0, 10), (0, 11)]⟩], [.done, .done], true, true⟩,
    by decide +kernel, by decide, ⟨_, rfl, rfl, rfl⟩⟩

/-- `C76_error_sound`, `C76_ends_partial`: an execution where the batcher fails and everything ends with its error. -/
def exFail : List Act :=
  [.emit 0, .deliver 0 0, .deliver 0 1, .fNext 0, .dbFail 0 7, .dbSend 0, .errTo 0 0, .rNext 0, .dbClose 0, .rEnd 0, .fEnd 0, .closeData, .dbEnd 1,
   .dbClose 1, .rEnd 1, .closeErrs, .pEnd 0]

example : ∃ s, (init 1 [[10, 11]]).run (fun _ => 0) 1 exFail = some s ∧ Reported s 0 [(.db 0, 7)] := by
  refine ⟨⟨[⟨[11], [10], .ended, [(.db 0, 7)]⟩], [.ended], [⟨.closed, some 7, [(0, 10)]⟩, ⟨.closed, none, [(0, 10)]⟩], [.done, .done], true, true⟩,
    by decide +kernel, ⟨_, rfl, rfl, rfl⟩⟩

end Fpki.Bridge
