import Verif.Props.Updater

/-!
# C24 with the HTTP fetcher: the goroutines that fetch, and what goes wrong if one of them is still running when fetching starts again
-/
namespace Fpki.Updater

/-- The process just started, with HTTP fetchers and an empty DB. -/
def freshSys : Sys := ⟨fresh emptyDB, fun _ => newHttp⟩

/-- The goroutine has returned, or is blocked sending on a full channel. -/
def Idle (h : Http) (g : Gor) : Prop := g.phase = .ended ∨ ∃ c r, g.phase = .send c r ∧ 2 ≤ (h.queue c).length

/-- The condition under which the fetcher keeps to its contract: when fetching starts, every goroutine of this fetcher has returned, or is blocked on its
channel, from which nothing will be received any more. -/
def Quiet (x : Sys) : SEv → Prop
  | .start _ => ∀ g ∈ (x.hs x.s.cur).gors, Idle (x.hs x.s.cur) g
  | _ => True

/-- The entries returned since the fetcher was started. -/
def sgotAfter (x : Sys) (got : List Nat) : SEv → List Nat
  | .start _ => []
  | .startErr _ => []
  | .recv =>
    match (x.hs x.s.cur).queue (x.hs x.s.cur).ch with
    | .batch b :: _ => got ++ b.all
    | _ => got
  | _ => got

inductive SReach (n pb : Nat) : Sys → List Nat → Prop
  | init : SReach n pb freshSys []
  | step {x x' : Sys} {got : List Nat} (e : SEv) : SReach n pb x got → Quiet x e → x.exec n pb e = some x' → SReach n pb x' (sgotAfter x got e)

/-- The entries of the results. -/
def entries (q : List Fetched) : List Nat := q.flatMap (fun r => match r with | .err => [] | .batch b => b.all)

/-- The entries of the first `m` batches. -/
def upTo (pb start stop m : Nat) : List Nat := (List.range (min stop (start + m * pb) - start)).map (start + ·)

theorem upTo_succ (pb start stop m : Nat) : upTo pb start stop (m + 1) = upTo pb start stop m ++ block pb start stop m := by
  unfold upTo block
  rw [Nat.succ_mul]
  generalize m * pb = k
  by_cases h : stop ≤ start + k
  · have h1 : min stop (start + (k + pb)) - start = min stop (start + k) - start := by omega
    have h2 : min stop (start + k + pb) - (start + k) = 0 := by omega
    rw [h1, h2]
    simp
  · have h1 : min stop (start + (k + pb)) - start = k + (min stop (start + k + pb) - (start + k)) := by omega
    have h2 : min stop (start + k) - start = k := by omega
    rw [h1, h2, List.range_add, List.map_append, List.map_map]
    congr 1
    apply List.map_congr_left
    intro j _
    simp
    omega

theorem upTo_nodup (pb start stop m : Nat) : (upTo pb start stop m).Nodup :=
  List.Nodup.map (fun a b h => by simpa using h) List.nodup_range

theorem mem_upTo {pb start stop m i : Nat} (h : i ∈ upTo pb start stop m) : start ≤ i ∧ i < stop := by
  obtain ⟨j, h1, h2⟩ := List.mem_map.1 h
  have := List.mem_range.1 h1
  omega

/-- What holds for every fetcher. -/
structure HInv (h : Http) : Prop where
  queue : ∀ c, h.ch < c → h.queue c = []
  old : ∀ (k : Nat) (g : Gor), h.gors[k]? = some g → k + 1 ≠ h.gors.length → Idle h g ∧ ∀ c r, g.phase = .send c r → c < h.ch
  new : ∀ (k : Nat) (g : Gor), h.gors[k]? = some g → ∀ c r, g.phase = .send c r → c ≤ h.ch

/-- What holds while the fetcher is in use: the results that were received, are in the channel, or are being sent make up a part of the requested range. -/
def Stream (pb : Nat) (h : Http) (got : List Nat) (orig target : Nat) : Prop :=
  h.start = orig ∧ h.stop = target ∧ ∃ m, got ++ entries (h.queue h.ch) = upTo pb orig target m ∧
    ∀ (k : Nat) (g : Gor), h.gors[k]? = some g → k + 1 = h.gors.length → g.phase ≠ .ended →
      m = g.i ∧ ∀ c r, g.phase = .send c r → c = h.ch ∧ (r = .err ∨ r = .batch ⟨block pb orig target g.i, []⟩)

structure SInv (pb : Nat) (x : Sys) (got : List Nat) : Prop where
  http : ∀ f, HInv (x.hs f)
  stream : x.s.init = true → Stream pb (x.hs x.s.cur) got x.s.orig x.s.target

theorem hinv_new : HInv newHttp := ⟨fun _ _ => rfl, by simp [newHttp], by simp [newHttp]⟩

theorem hinv_start {pb : Nat} {h : Http} (hi : HInv h) (hq : ∀ g ∈ h.gors, Idle h g) (a b : Nat) : HInv (h.startFetching pb a b) := by
  unfold Http.startFetching
  refine ⟨fun c hc => hi.queue c (Nat.lt_of_succ_lt hc), ?_, ?_⟩
  · intro k g hk hl
    simp only [List.length_append, List.length_cons, List.length_nil] at hl
    by_cases h1 : k < h.gors.length
    · rw [List.getElem?_append_left h1] at hk
      exact ⟨hq g (List.mem_of_getElem? hk), fun c r hr => Nat.lt_succ_of_le (hi.new k g hk c r hr)⟩
    · rw [List.getElem?_eq_none (by simp; omega)] at hk
      cases hk
  · intro k g hk c r hr
    by_cases h1 : k < h.gors.length
    · rw [List.getElem?_append_left h1] at hk
      exact Nat.le_succ_of_le (hi.new k g hk c r hr)
    · rw [List.getElem?_append_right (by omega)] at hk
      have := List.mem_of_getElem? hk
      rw [List.mem_singleton] at this
      rw [this] at hr
      split at hr <;> cases hr

theorem stream_start {pb : Nat} {h : Http} (hi : HInv h) (a b : Nat) : Stream pb (h.startFetching pb a b) [] a b := by
  unfold Http.startFetching
  refine ⟨rfl, rfl, 0, ?_, ?_⟩
  · simp only [hi.queue _ (Nat.lt_succ_self _)]
    simp [entries, upTo]
  · intro k g hk hl he
    simp only [List.length_append, List.length_cons, List.length_nil] at hl
    rw [List.getElem?_append_right (by omega)] at hk
    have := List.mem_of_getElem? hk
    rw [List.mem_singleton] at this
    split at this
    · subst this
      exact ⟨rfl, fun c r hr => by cases hr⟩
    · subst this
      exact absurd rfl he

theorem getElem?_set' {l : List α} {k j : Nat} {x y : α} (h : (l.set k x)[j]? = some y) : (j = k ∧ y = x) ∨ (j ≠ k ∧ l[j]? = some y) := by
  by_cases hj : k = j
  · subst hj
    rw [List.getElem?_set_self'] at h
    left
    cases hl : l[k]? with
    | none => rw [hl] at h; cases h
    | some z => rw [hl] at h; cases h; exact ⟨rfl, rfl⟩
  · rw [List.getElem?_set_ne hj] at h
    exact Or.inr ⟨fun h => hj h.symm, h⟩

/-- Only the last goroutine can be downloading. -/
theorem HInv.last {h : Http} (hi : HInv h) {k : Nat} {g : Gor} (hk : h.gors[k]? = some g) (hd : g.phase = .down) : k + 1 = h.gors.length := by
  by_contra hl
  rcases (hi.old k g hk hl).1 with h1 | ⟨c, r, h1, _⟩
  · rw [h1] at hd; cases hd
  · rw [h1] at hd; cases hd

theorem hinv_set {h : Http} (hi : HInv h) {k : Nat} {g : Gor} (hk : h.gors[k]? = some g) (p : Phase) (i : Nat)
    (hp : p = .ended ∨ (k + 1 = h.gors.length ∧ (p = .down ∨ ∃ r, p = .send h.ch r)))
    (q : Nat → List Fetched) (hq : ∀ c, h.ch < c → q c = []) (hq' : ∀ c, (h.queue c).length ≤ (q c).length) (st : Bool) :
    HInv { h with gors := h.gors.set k { g with i := i, phase := p }, queue := q, stopping := st } := by
  refine ⟨hq, ?_, ?_⟩
  · intro j g' hj hl
    simp only [List.length_set] at hl
    rcases getElem?_set' hj with ⟨h1, h2⟩ | ⟨h1, h2⟩
    · subst h2
      rcases hp with hp | ⟨hp, _⟩
      · exact ⟨Or.inl hp, by simp [hp]⟩
      · exact absurd (h1 ▸ hp) hl
    · obtain ⟨h3, h4⟩ := hi.old j g' h2 hl
      exact ⟨h3.imp_right (fun ⟨c, r, h5, h6⟩ => ⟨c, r, h5, Nat.le_trans h6 (hq' c)⟩), h4⟩
  · intro j g' hj c r hr
    rcases getElem?_set' hj with ⟨h1, h2⟩ | ⟨h1, h2⟩
    · subst h2
      rcases hp with hp | ⟨_, hp | ⟨r', hp⟩⟩
      · simp [hp] at hr
      · simp [hp] at hr
      · simp only [hp] at hr
        cases hr
        exact Nat.le_refl _
    · exact hi.new j g' h2 c r hr

theorem downloaded_inv {pb : Nat} {h h' : Http} {k : Nat} {ok : Bool} (hi : HInv h) (he : h.downloaded pb k ok = some h') : HInv h' := by
  unfold Http.downloaded at he
  split at he
  · cases he
  · rename_i g hk
    split at he
    · rename_i hd
      have hl := hi.last hk hd
      split at he
      · split at he
        · cases he
          exact hinv_set hi hk .ended g.i (Or.inl rfl) _ hi.queue (fun _ => Nat.le_refl _) _
        · cases he
          exact hinv_set hi hk _ g.i (Or.inr ⟨hl, Or.inr ⟨_, rfl⟩⟩) _ hi.queue (fun _ => Nat.le_refl _) _
      · cases he
        exact hinv_set hi hk _ g.i (Or.inr ⟨hl, Or.inr ⟨_, rfl⟩⟩) _ hi.queue (fun _ => Nat.le_refl _) _
    · cases he

theorem downloaded_stream {pb : Nat} {h h' : Http} {k : Nat} {ok : Bool} (hi : HInv h) {got : List Nat} {a b : Nat} (hs : Stream pb h got a b)
    (he : h.downloaded pb k ok = some h') : Stream pb h' got a b := by
  obtain ⟨h1, h2, m, h3, h4⟩ := hs
  unfold Http.downloaded at he
  split at he
  · cases he
  · rename_i g hk
    split at he
    · rename_i hd
      have hl := hi.last hk hd
      have hm := (h4 k g hk hl (by simp [hd])).1
      have key : ∀ (p : Phase), (p = .ended ∨ p = .send h.ch .err ∨ p = .send h.ch (.batch ⟨block pb a b g.i, []⟩)) →
          ∀ (st : Bool), Stream pb { h with gors := h.gors.set k { g with phase := p }, stopping := st } got a b := by
        intro p hp st
        refine ⟨h1, h2, m, h3, ?_⟩
        intro j g' hj hjl he'
        simp only [List.length_set] at hjl
        rcases getElem?_set' hj with ⟨g1, g2⟩ | ⟨g1, g2⟩
        · subst g2
          refine ⟨hm, ?_⟩
          intro c r hr
          rcases hp with hp | hp | hp
          · exact absurd hp he'
          · simp only [hp] at hr
            cases hr
            exact ⟨rfl, Or.inl rfl⟩
          · simp only [hp] at hr
            cases hr
            exact ⟨rfl, Or.inr rfl⟩
        · omega
      split at he
      · split at he
        · cases he
          exact key .ended (Or.inl rfl) _
        · cases he
          refine key (.send h.ch (.batch ⟨block pb h.start h.stop g.i, []⟩)) (Or.inr (Or.inr ?_)) _
          rw [h1, h2]
      · cases he
        exact key _ (Or.inr (Or.inl rfl)) _
    · cases he

/-- An old goroutine does not send. -/
theorem sent_last {h h' : Http} {k : Nat} (hi : HInv h) (he : h.sent k = some h') : k + 1 = h.gors.length := by
  by_contra hl
  unfold Http.sent at he
  split at he
  · cases he
  · rename_i g hk
    rcases (hi.old k g hk hl).1 with h1 | ⟨c, r, h1, h2⟩
    · rw [h1] at he; cases he
    · rw [h1] at he
      dsimp only at he
      rw [if_neg (by omega)] at he
      cases he

theorem sent_inv {h h' : Http} {k : Nat} (hi : HInv h) (he : h.sent k = some h') : HInv h' := by
  have hl := sent_last hi he
  unfold Http.sent at he
  split at he
  · cases he
  · rename_i g hk
    split at he
    · rename_i c r hp
      split at he
      · cases he
        refine hinv_set hi hk _ (g.i + 1) ?_ _ ?_ ?_ _
        · split
          · exact Or.inl rfl
          · exact Or.inr ⟨hl, Or.inl rfl⟩
        · intro c' hc'
          have := hi.new k g hk c r hp
          rw [if_neg (by omega)]
          exact hi.queue c' hc'
        · intro c'
          split
          · rename_i hc
            simp [hc]
          · exact Nat.le_refl _
      · cases he
    · cases he

theorem entries_append (a b : List Fetched) : entries (a ++ b) = entries a ++ entries b := List.flatMap_append

theorem sent_stream {pb : Nat} {h h' : Http} {k : Nat} (hi : HInv h) {got : List Nat} {a b : Nat} (hs : Stream pb h got a b)
    (he : h.sent k = some h') : Stream pb h' got a b := by
  have hl := sent_last hi he
  obtain ⟨h1, h2, m, h3, h4⟩ := hs
  unfold Http.sent at he
  split at he
  · cases he
  · rename_i g hk
    split at he
    · rename_i c r hp
      split at he
      · cases he
        obtain ⟨hm, h5⟩ := h4 k g hk hl (by simp [hp])
        obtain ⟨hc, h6⟩ := h5 c r hp
        subst hc
        rcases h6 with h6 | h6
        · subst h6
          refine ⟨h1, h2, m, ?_, ?_⟩
          · simp only [if_true]
            rw [entries_append, ← h3]
            simp [entries]
          · intro j g' hj hjl he'
            simp only [List.length_set] at hjl
            rcases getElem?_set' hj with ⟨g1, g2⟩ | ⟨g1, g2⟩
            · subst g2
              simp at he'
            · omega
        · subst h6
          refine ⟨h1, h2, m + 1, ?_, ?_⟩
          · simp only [if_true]
            rw [entries_append, ← List.append_assoc, h3, upTo_succ, hm]
            simp [entries, Batch.all]
          · intro j g' hj hjl he'
            simp only [List.length_set] at hjl
            rcases getElem?_set' hj with ⟨g1, g2⟩ | ⟨g1, g2⟩
            · subst g2
              refine ⟨by rw [hm], ?_⟩
              intro c' r' hr'
              simp only at hr'
              split at hr' <;> cases hr'
            · omega
      · cases he
    · cases he

theorem exec_db_start {n : Nat} {s s' : State} {a : StartAnswer} (h : exec n s (.start a) = some s') : s' = (startNextFetcher s a).1 ∧ s.cur < n ∧ s.init = false := by
  simp only [exec] at h
  split at h
  · rename_i hc
    cases h
    exact ⟨rfl, hc⟩
  · cases h

/-- One step of the process is a call of the updater in which the fetcher keeps to its contract, or does not concern the updater. -/
theorem SInv.step {n pb : Nat} {x x' : Sys} {got : List Nat} (hi : SInv pb x got) (hr : Reach n x.s got) (e : SEv) (hq : Quiet x e) (he : x.exec n pb e = some x') :
    SInv pb x' (sgotAfter x got e) ∧ Reach n x'.s (sgotAfter x got e) := by
  have hmap : ∀ {e' : Ev} {g : State → Sys}, (exec n x.s e').map g = some x' → ∃ s, exec n x.s e' = some s ∧ x' = g s := by
    intro e' g h
    cases h1 : exec n x.s e' with
    | none => rw [h1] at h; cases h
    | some s => rw [h1] at h; cases h; exact ⟨s, rfl, rfl⟩
  cases e with
  | cycle =>
    simp only [Sys.exec] at he
    obtain ⟨s, h1, rfl⟩ := hmap he
    have hr' := Reach.step .cycle hr trivial h1
    cases h1
    exact ⟨⟨hi.http, fun h => absurd h (by simp [startFetchingRemaining])⟩, hr'⟩
  | startErr b =>
    simp only [Sys.exec] at he
    obtain ⟨s, h1, rfl⟩ := hmap he
    have hr' := Reach.step _ hr (by cases b <;> trivial) h1
    refine ⟨⟨hi.http, fun h => ?_⟩, hr'⟩
    obtain ⟨h2, _, h3⟩ := exec_db_start h1
    subst h2
    cases b <;> simp [startNextFetcher, h3] at h
  | start t =>
    simp only [Sys.exec] at he
    obtain ⟨s, h1, rfl⟩ := hmap he
    have hr' := Reach.step (.start (.ok t)) hr trivial h1
    obtain ⟨h2, _, h3⟩ := exec_db_start h1
    subst h2
    refine ⟨⟨?_, fun _ => ?_⟩, hr'⟩
    · intro f
      simp only [startNextFetcher, Sys.setHttp]
      split
      · exact hinv_start (hi.http _) hq _ _
      · exact hi.http f
    · simp only [startNextFetcher, Sys.setHttp, if_true]
      exact stream_start (hi.http _) _ _
  | recv =>
    simp only [Sys.exec] at he
    split at he
    · cases he
    · rename_i r q hqu
      obtain ⟨s, h1, rfl⟩ := hmap he
      have hg : x.s.cur < n ∧ x.s.init = true ∧ x.s.pending = none ∧ s = nextBatch x.s (some r) := by
        simp only [exec] at h1
        split at h1
        · rename_i hc
          cases h1
          exact ⟨hc.1, hc.2.1, hc.2.2, rfl⟩
        · cases h1
      obtain ⟨h2, h3, m, h4, h5⟩ := hi.stream hg.2.1
      have hhttp : ∀ f, HInv ((x.setHttp s x.s.cur { x.hs x.s.cur with queue := fun c => if c = (x.hs x.s.cur).ch then q else (x.hs x.s.cur).queue c }).hs f) := by
        intro f
        simp only [Sys.setHttp]
        split
        · have hh := hi.http x.s.cur
          refine ⟨?_, ?_, hh.new⟩
          · intro c hc
            have hc' : (x.hs x.s.cur).ch < c := hc
            show (if c = (x.hs x.s.cur).ch then q else (x.hs x.s.cur).queue c) = []
            rw [if_neg (by omega)]
            exact hh.queue c hc'
          · intro k g hk hl
            obtain ⟨g1, g2⟩ := hh.old k g hk hl
            refine ⟨g1.imp_right (fun ⟨c, r', g3, g4⟩ => ⟨c, r', g3, ?_⟩), g2⟩
            have := g2 c r' g3
            show 2 ≤ (if c = (x.hs x.s.cur).ch then q else (x.hs x.s.cur).queue c).length
            rw [if_neg (by omega)]
            exact g4
        · exact hi.http f
      have hgot : ∀ got', got' ++ entries q = upTo pb x.s.orig x.s.target m → s.init = true → s.cur = x.s.cur → s.orig = x.s.orig → s.target = x.s.target →
          Stream pb ((x.setHttp s x.s.cur { x.hs x.s.cur with queue := fun c => if c = (x.hs x.s.cur).ch then q else (x.hs x.s.cur).queue c }).hs s.cur) got' s.orig s.target := by
        intro got' k1 k2 k3 k4 k5
        rw [k3, k4, k5]
        simp only [Sys.setHttp, if_true]
        exact ⟨h2, h3, m, by simp only [if_true]; exact k1, h5⟩
      rw [hqu] at h4
      cases r with
      | err =>
        have hsg : sgotAfter x got .recv = got := by simp only [sgotAfter]; rw [hqu]
        rw [hsg]
        refine ⟨⟨hhttp, fun hin => hgot got (by simpa [entries] using h4) hin ?_ ?_ ?_⟩, Reach.step (.next (some .err)) hr trivial h1⟩ <;> rw [hg.2.2.2] <;> rfl
      | batch b =>
        have hsg : sgotAfter x got .recv = got ++ b.all := by simp only [sgotAfter]; rw [hqu]
        rw [hsg]
        have h6 : got ++ b.all ++ entries q = upTo pb x.s.orig x.s.target m := by rw [← h4]; simp [entries]
        have hnd := upTo_nodup pb x.s.orig x.s.target m
        rw [← h6, List.nodup_append, List.nodup_append] at hnd
        refine ⟨⟨hhttp, fun hin => hgot _ h6 hin ?_ ?_ ?_⟩, Reach.step (.next (some (.batch b))) hr ⟨hnd.1.2.1, fun i hib => ?_⟩ h1⟩
        · rw [hg.2.2.2] at hin ⊢
          simp only [nextBatch] at hin ⊢
          split at hin
          · cases hin
          · rename_i hne
            rw [if_neg hne]
        · rw [hg.2.2.2]
          simp only [nextBatch]
          split <;> rfl
        · rw [hg.2.2.2]
          simp only [nextBatch]
          split <;> rfl
        · have hm : i ∈ upTo pb x.s.orig x.s.target m := by rw [← h6]; simp [hib]
          exact ⟨(mem_upTo hm).1, (mem_upTo hm).2, fun hg' => hnd.1.2.2 i hg' i hib rfl⟩
  | closed =>
    simp only [Sys.exec] at he
    split at he
    · obtain ⟨s, h1, rfl⟩ := hmap he
      have hr' := Reach.step (.next none) hr trivial h1
      refine ⟨⟨?_, fun h => ?_⟩, hr'⟩
      · intro f
        simp only [Sys.setHttp]
        split
        · exact ⟨(hi.http _).queue, (hi.http _).old, (hi.http _).new⟩
        · exact hi.http f
      · simp only [exec] at h1
        split at h1
        · cases h1
          simp [Sys.setHttp, nextBatch] at h
        · cases h1
    · cases he
  | cancelled =>
    simp only [Sys.exec] at he
    obtain ⟨s, h1, rfl⟩ := hmap he
    have hr' := Reach.step (.next (some .err)) hr trivial h1
    refine ⟨⟨hi.http, fun h => ?_⟩, hr'⟩
    simp only [exec] at h1
    split at h1
    · rename_i hc
      cases h1
      exact hi.stream hc.2.1
    · cases h1
  | update i r p =>
    simp only [Sys.exec] at he
    obtain ⟨s, h1, rfl⟩ := hmap he
    have hr' := Reach.step (.update i r p) hr trivial h1
    refine ⟨⟨hi.http, fun h => ?_⟩, hr'⟩
    simp only [exec] at h1
    split at h1
    · cases h1
    · cases h1
      have hall : (updateNextBatch x.s i r p).1.init = x.s.init ∧ (updateNextBatch x.s i r p).1.cur = x.s.cur ∧ (updateNextBatch x.s i r p).1.orig = x.s.orig ∧
          (updateNextBatch x.s i r p).1.target = x.s.target := by
        unfold updateNextBatch
        split
        · exact ⟨rfl, rfl, rfl, rfl⟩
        · exact ⟨rfl, rfl, rfl, rfl⟩
        · split
          · dsimp only
            split
            · split <;> exact ⟨rfl, rfl, rfl, rfl⟩
            · exact ⟨rfl, rfl, rfl, rfl⟩
          · exact ⟨rfl, rfl, rfl, rfl⟩
      simp only at h ⊢
      rw [hall.2.1, hall.2.2.1, hall.2.2.2]
      exact hi.stream (hall.1 ▸ h)
  | crash =>
    simp only [Sys.exec] at he
    obtain ⟨s, h1, rfl⟩ := hmap he
    have hr' := Reach.step .crash hr trivial h1
    cases h1
    exact ⟨⟨fun _ => hinv_new, fun h => absurd h (by simp [restart])⟩, hr'⟩
  | downloaded f k ok =>
    simp only [Sys.exec] at he
    cases h1 : (x.hs f).downloaded pb k ok with
    | none => rw [h1] at he; cases he
    | some h =>
      rw [h1] at he
      cases he
      refine ⟨⟨?_, fun hin => ?_⟩, hr⟩
      · intro f'
        simp only [Sys.setHttp]
        split
        · exact downloaded_inv (hi.http f) h1
        · exact hi.http f'
      · simp only [Sys.setHttp]
        split
        · rename_i hf
          subst hf
          exact downloaded_stream (hi.http _) (hi.stream hin) h1
        · exact hi.stream hin
  | sent f k =>
    simp only [Sys.exec] at he
    cases h1 : (x.hs f).sent k with
    | none => rw [h1] at he; cases he
    | some h =>
      rw [h1] at he
      cases he
      refine ⟨⟨?_, fun hin => ?_⟩, hr⟩
      · intro f'
        simp only [Sys.setHttp]
        split
        · exact sent_inv (hi.http f) h1
        · exact hi.http f'
      · simp only [Sys.setHttp]
        split
        · rename_i hf
          subst hf
          exact sent_stream (hi.http _) (hi.stream hin) h1
        · exact hi.stream hin

theorem SReach.inv {n pb : Nat} {x : Sys} {got : List Nat} (h : SReach n pb x got) : SInv pb x got ∧ Reach n x.s got := by
  induction h with
  | init => exact ⟨⟨fun _ => hinv_new, fun h => absurd h (by simp [freshSys, fresh])⟩, Reach.init⟩
  | step e _ hq he ih => exact ih.1.step ih.2 e hq he

/-- With HTTP fetchers, any number of batches, failures, cycles, cancellations and crashes, and any interleaving with the goroutines that download: every entry below the recorded size
was inserted, provided that fetching never starts while a goroutine of an earlier attempt is still at work. -/
theorem C24_http_complete_partial {n pb : Nat} {x : Sys} {got : List Nat} (h : SReach n pb x got) (f i : Nat) (hi : i < x.s.db.recorded f) :
    x.s.db.stored f i = true ∨ x.s.db.excluded f i = true := h.inv.2.inv.complete f i hi

/-- The first attempt fails while inserting the first batch (of entries 0 and 1); the goroutine is then downloading the second. The next cycle starts fetching again:
the old goroutine delivers the second batch to the new channel, the new one the first and the second. After three batches of two the size is 6. -/
def staleRun : List SEv :=
  [.start 6, .downloaded 0 0 true, .sent 0 0, .recv, .update false true true, .cycle,
   .start 6, .downloaded 0 0 true, .sent 0 0, .downloaded 0 1 true, .sent 0 1, .recv, .update true true true, .recv, .update true true true,
   .downloaded 0 1 true, .sent 0 1, .recv, .update true true true]

/-- Without that condition the property does not hold, and nothing ensures it: `UpdateNextBatch` returns on an error without stopping the fetcher, whose goroutine then
sends to the channel of the next attempt. Size 6 is recorded, although entries 4 and 5 were never inserted; a crash now means that they never will be. -/
theorem C24_stale_fetch_violated : ∃ x, freshSys.execAll 1 2 staleRun = some x ∧ x.s.db.recorded 0 = 6 ∧
    x.s.db.stored 0 4 = false ∧ x.s.db.excluded 0 4 = false ∧ x.s.db.stored 0 5 = false ∧ x.s.db.excluded 0 5 = false := by
  have h : (freshSys.execAll 1 2 staleRun).map (fun x => (x.s.db.recorded 0, x.s.db.stored 0 4, x.s.db.excluded 0 4, x.s.db.stored 0 5, x.s.db.excluded 0 5)) =
      some (6, false, false, false, false) := by decide
  cases h1 : freshSys.execAll 1 2 staleRun with
  | none => rw [h1] at h; cases h
  | some x =>
    rw [h1] at h
    simp only [Option.map_some, Option.some.injEq, Prod.mk.injEq] at h
    exact ⟨x, rfl, h.1, h.2.1, h.2.2.1, h.2.2.2.1, h.2.2.2.2⟩

/-- A good run: a failed insertion, then the goroutine fills the channel and blocks, then a new attempt succeeds. -/
def goodRun : List SEv :=
  [.start 8, .downloaded 0 0 true, .sent 0 0, .recv, .update false true true, .downloaded 0 0 true, .sent 0 0, .downloaded 0 0 true, .sent 0 0, .downloaded 0 0 true, .cycle,
   .start 4, .downloaded 0 1 true, .sent 0 1, .recv, .update true true true, .downloaded 0 1 true, .sent 0 1, .recv, .update true true true, .closed]

instance (h : Http) (g : Gor) : Decidable (Idle h g) := by
  unfold Idle
  match hp : g.phase with
  | .ended => exact isTrue (Or.inl rfl)
  | .down => exact isFalse (by rintro (h | ⟨c, r, h, _⟩) <;> cases h)
  | .send c r =>
    exact if h1 : 2 ≤ (h.queue c).length then isTrue (Or.inr ⟨c, r, rfl, h1⟩)
      else isFalse (by rintro (h2 | ⟨c', r', h2, h3⟩); cases h2; cases h2; exact h1 h3)

instance (x : Sys) (e : SEv) : Decidable (Quiet x e) := by
  unfold Quiet
  split <;> infer_instance

/-- Runs the steps if they meet the condition. -/
def execQuiet (n pb : Nat) : Sys → List SEv → Option Sys
  | x, [] => some x
  | x, e :: es => if Quiet x e then (x.exec n pb e).bind (fun x => execQuiet n pb x es) else none

theorem sreach_execQuiet {n pb : Nat} : ∀ (es : List SEv) {x : Sys} {got : List Nat}, SReach n pb x got → ∀ {x' : Sys}, execQuiet n pb x es = some x' →
    ∃ got', SReach n pb x' got'
  | [], x, got, h, x', he => by cases he; exact ⟨got, h⟩
  | e :: es, x, got, h, x', he => by
    unfold execQuiet at he
    split at he
    · rename_i hc
      cases h1 : x.exec n pb e with
      | none => rw [h1] at he; cases he
      | some s1 =>
        rw [h1] at he
        exact sreach_execQuiet es (SReach.step e h hc h1) he
    · cases he

example : ∃ x got, SReach 1 2 x got ∧ x.s.db.recorded 0 = 4 ∧ x.s.cur = 1 := by
  have h : (execQuiet 1 2 freshSys goodRun).map (fun x => (x.s.db.recorded 0, x.s.cur)) = some (4, 1) := by decide
  cases h1 : execQuiet 1 2 freshSys goodRun with
  | none => rw [h1] at h; cases h
  | some x =>
    rw [h1] at h
    simp only [Option.map_some, Option.some.injEq, Prod.mk.injEq] at h
    obtain ⟨got, hg⟩ := sreach_execQuiet _ SReach.init h1
    exact ⟨x, got, hg, h.1, h.2⟩

/-- The steps of an undisturbed fetch: `m` times, goroutine `k` of fetcher `f` downloads and sends a batch, and the updater inserts it. -/
def fetchAll (f k : Nat) : Nat → List SEv
  | 0 => []
  | m + 1 => .downloaded f k true :: .sent f k :: .recv :: .update true true true :: fetchAll f k m

/-- Between two batches of an undisturbed fetch, `j` of which were inserted. -/
structure Between (pb : Nat) (x : Sys) (f k a t j : Nat) : Prop where
  cur : x.s.cur = f
  init : x.s.init = true
  pending : x.s.pending = none
  orig : x.s.last = min t (a + j * pb)
  target : x.s.target = t
  start : (x.hs f).start = a
  stop : (x.hs f).stop = t
  stopping : (x.hs f).stopping = false
  queue : (x.hs f).queue (x.hs f).ch = []
  gor : (x.hs f).gors[k]? = some ⟨(x.hs f).ch, 1 + (t - 1 - a) / pb, j, .down⟩

theorem block_length (pb start stop i : Nat) : (block pb start stop i).length = min stop (start + i * pb + pb) - (start + i * pb) := by simp [block]

theorem between_step {n pb : Nat} (hpb : 0 < pb) {x : Sys} {f k a t j : Nat} (hf : f < n) (ha : a < t) (h : Between pb x f k a t j) (hj : j < 1 + (t - 1 - a) / pb) :
    ∃ x', (∀ es, x.execAll n pb (.downloaded f k true :: .sent f k :: .recv :: .update true true true :: es) = x'.execAll n pb es) ∧
      (j + 1 < 1 + (t - 1 - a) / pb → Between pb x' f k a t (j + 1)) ∧ (j + 1 = 1 + (t - 1 - a) / pb → x'.s.db.recorded f = t) := by
  obtain ⟨h1, h2, h3, h4, h5, h6, h7, h8, h9, h10⟩ := h
  have hjp : j * pb ≤ t - 1 - a := by
    have h11 : j ≤ (t - 1 - a) / pb := by omega
    calc j * pb ≤ (t - 1 - a) / pb * pb := Nat.mul_le_mul_right _ h11
      _ ≤ t - 1 - a := Nat.div_mul_le_self _ _
  have hbl : 0 < (block pb a t j).length := by rw [block_length]; omega
  have hbne : block pb a t j ≠ [] := List.length_pos_iff.1 hbl
  have hkl : k < (x.hs f).gors.length := by
    by_contra hn
    rw [List.getElem?_eq_none (by omega)] at h10
    cases h10
  subst h1
  obtain ⟨⟨db, cur, init, orig, last, target, pending⟩, hs⟩ := x
  simp only at *
  subst h2 h3 h4 h5
  generalize hg : hs cur = H at *
  obtain ⟨ch, st, sp, stopping, queue, gors⟩ := H
  simp only at *
  subst h6 h7 h8
  -- the step
  have e1 : (⟨⟨db, cur, true, orig, min sp (st + j * pb), sp, none⟩, hs⟩ : Sys).exec n pb (.downloaded cur k true) =
      some (Sys.setHttp ⟨⟨db, cur, true, orig, min sp (st + j * pb), sp, none⟩, hs⟩ ⟨db, cur, true, orig, min sp (st + j * pb), sp, none⟩ cur
        ⟨ch, st, sp, false, queue, gors.set k ⟨ch, 1 + (sp - 1 - st) / pb, j, .send ch (.batch ⟨block pb st sp j, []⟩)⟩⟩) := by
    simp [Sys.exec, Http.downloaded, hg, h10]
  set ph : Phase := if 1 + (sp - 1 - st) / pb ≤ j + 1 then .ended else .down with hph
  let x2 : Sys := ⟨⟨db, cur, true, orig, min sp (st + j * pb), sp, none⟩, fun f' => if f' = cur then
      ⟨ch, st, sp, false, fun c => if c = ch then [.batch ⟨block pb st sp j, []⟩] else queue c, gors.set k ⟨ch, 1 + (sp - 1 - st) / pb, j + 1, ph⟩⟩ else hs f'⟩
  have e2 : (Sys.setHttp ⟨⟨db, cur, true, orig, min sp (st + j * pb), sp, none⟩, hs⟩ ⟨db, cur, true, orig, min sp (st + j * pb), sp, none⟩ cur
        ⟨ch, st, sp, false, queue, gors.set k ⟨ch, 1 + (sp - 1 - st) / pb, j, .send ch (.batch ⟨block pb st sp j, []⟩)⟩⟩).exec n pb (.sent cur k) = some x2 := by
    simp only [Sys.exec, Sys.setHttp, if_true, Http.sent]
    rw [List.getElem?_set_self hkl]
    simp only [h9, List.length_nil, Nat.zero_lt_two, if_true, List.nil_append, List.set_set, Option.map_some]
    congr 1
    simp only [x2, hph]
    congr 1
    funext f'
    by_cases hf' : f' = cur <;> simp [hf']
  let x3 : Sys := ⟨⟨db, cur, true, orig, min sp (st + j * pb), sp, some (.batch ⟨block pb st sp j, []⟩)⟩, fun f' => if f' = cur then
      ⟨ch, st, sp, false, fun c => if c = ch then [] else queue c, gors.set k ⟨ch, 1 + (sp - 1 - st) / pb, j + 1, ph⟩⟩ else hs f'⟩
  have e3 : x2.exec n pb .recv = some x3 := by
    simp only [Sys.exec, x2, if_true, Updater.exec, hf, and_self, nextBatch, Batch.all, List.append_nil, hbne, if_false, Option.map_some, Sys.setHttp]
    congr 1
    simp only [x3]
    congr 1
    funext f'
    by_cases hf' : f' = cur
    · simp only [hf', if_true]
      congr 1
      funext c
      by_cases hc : c = ch <;> simp [hc]
    · simp [hf']
  have hlast : min sp (st + j * pb) + (block pb st sp j).length + ([] : List Nat).length = min sp (st + (j + 1) * pb) := by
    rw [block_length, Nat.succ_mul]
    simp only [List.length_nil]
    omega
  have hcase : j + 1 = 1 + (sp - 1 - st) / pb ∨ j + 1 < 1 + (sp - 1 - st) / pb := by omega
  rcases hcase with hc | hc
  · have hfull : min sp (st + (j + 1) * pb) = sp := by
      have := Nat.lt_div_mul_add (a := sp - 1 - st) hpb
      have h12 : (j + 1) * pb = (sp - 1 - st) / pb * pb + pb := by
        rw [hc, Nat.add_mul, Nat.one_mul, Nat.add_comm]
      omega
    have e4 : x3.exec n pb (.update true true true) = some { x3 with s := ⟨(db.store cur ⟨block pb st sp j, []⟩).record cur sp, cur, true, orig, sp, sp, none⟩ } := by
      simp only [Sys.exec, x3, Updater.exec, updateNextBatch]
      rw [hlast, hfull]
      simp
    refine ⟨{ x3 with s := ⟨(db.store cur ⟨block pb st sp j, []⟩).record cur sp, cur, true, orig, sp, sp, none⟩ }, fun es => ?_, fun h => absurd h (by omega), fun _ => ?_⟩
    · simp only [Sys.execAll]
      rw [e1]
      simp only [Option.bind_some]
      rw [e2]
      simp only [Option.bind_some]
      rw [e3]
      simp only [Option.bind_some]
      rw [e4]
      simp only [Option.bind_some]
    · simp [DB.record]
  · have hnfull : min sp (st + (j + 1) * pb) ≠ sp := by
      have h11 : (j + 1) * pb ≤ (sp - 1 - st) / pb * pb := Nat.mul_le_mul_right _ (by omega)
      have h12 := Nat.div_mul_le_self (sp - 1 - st) pb
      omega
    have e4 : x3.exec n pb (.update true true true) = some { x3 with s := ⟨db.store cur ⟨block pb st sp j, []⟩, cur, true, orig, min sp (st + (j + 1) * pb), sp, none⟩ } := by
      simp only [Sys.exec, x3, Updater.exec, updateNextBatch]
      rw [hlast]
      simp [hnfull]
    refine ⟨{ x3 with s := ⟨db.store cur ⟨block pb st sp j, []⟩, cur, true, orig, min sp (st + (j + 1) * pb), sp, none⟩ }, fun es => ?_, fun _ => ?_, fun h => absurd h (by omega)⟩
    · simp only [Sys.execAll]
      rw [e1]
      simp only [Option.bind_some]
      rw [e2]
      simp only [Option.bind_some]
      rw [e3]
      simp only [Option.bind_some]
      rw [e4]
      simp only [Option.bind_some]
    · have hpd : ph = .down := by rw [hph, if_neg (by omega)]
      refine ⟨rfl, rfl, rfl, rfl, rfl, ?_, ?_, ?_, ?_, ?_⟩ <;> simp only [x3, if_true]
      rw [List.getElem?_set_self hkl, hpd]

theorem between_run {n pb : Nat} (hpb : 0 < pb) {f k a t : Nat} (hf : f < n) (ha : a < t) : ∀ (m j : Nat) (x : Sys), Between pb x f k a t j → j + (m + 1) = 1 + (t - 1 - a) / pb →
    ∃ x', x.execAll n pb (fetchAll f k (m + 1)) = some x' ∧ x'.s.db.recorded f = t
  | 0, j, x, h, hm => by
    obtain ⟨x', h1, _, h3⟩ := between_step hpb hf ha h (by omega)
    exact ⟨x', by unfold fetchAll; rw [h1]; rfl, h3 (by omega)⟩
  | m + 1, j, x, h, hm => by
    obtain ⟨x', h1, h2, _⟩ := between_step hpb hf ha h (by omega)
    obtain ⟨x'', h4, h5⟩ := between_run hpb hf ha m (j + 1) x' (h2 (by omega)) (by omega)
    exact ⟨x'', by unfold fetchAll; rw [h1]; exact h4, h5⟩

/-- A fetch that is not disturbed succeeds: from any state that can be reached, also after failures and after fetching was stopped, once the fetcher has been started and its goroutine's
batches are inserted, the size that the log server announced is recorded. -/
theorem C24_http_progress {n pb : Nat} (hpb : 0 < pb) {x : Sys} {got : List Nat} (hr : SReach n pb x got) (hcur : x.s.cur < n) (hi : x.s.init = false) (t : Nat)
    (ht : x.s.db.recorded x.s.cur < t) :
    ∃ x', x.execAll n pb (.start t :: fetchAll x.s.cur (x.hs x.s.cur).gors.length (1 + (t - 1 - x.s.db.recorded x.s.cur) / pb)) = some x' ∧
      x'.s.db.recorded x.s.cur = t := by
  obtain ⟨hinv, hreach⟩ := hr.inv
  have hpend := hreach.inv.idle hi
  have e : x.exec n pb (.start t) = some (x.setHttp (startNextFetcher x.s (.ok t)).1 x.s.cur ((x.hs x.s.cur).startFetching pb (x.s.db.recorded x.s.cur) t)) := by
    simp [Sys.exec, Updater.exec, hcur, hi, startNextFetcher]
  simp only [Sys.execAll]
  rw [e]
  simp only [Option.bind_some]
  rw [Nat.add_comm 1]
  refine between_run hpb hcur ht _ 0 _ ?_ (by omega)
  have hq := (hinv.http x.s.cur).queue ((x.hs x.s.cur).ch + 1) (Nat.lt_succ_self _)
  refine ⟨rfl, rfl, hpend, ?_, rfl, ?_, ?_, ?_, ?_, ?_⟩
  · show x.s.db.recorded x.s.cur = _
    omega
  all_goals simp [Sys.setHttp, Http.startFetching, hq, ht]

end Fpki.Updater
