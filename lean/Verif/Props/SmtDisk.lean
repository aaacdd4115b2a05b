import Verif.Model.SmtDisk
import Verif.Props.SmtStore

/-!
# Crashes of `UpdateSMT` (C11)
-/
namespace Fpki.SmtStore

open Fpki.Smt (Node KVs Key Val byteOf digest preimages rootHash run mapAfter applyKVs ValidBatch ValidHist EdgeDeletes EdgeHist SizedHist b32)

variable {c : Cfg}

/-! ## What is violated -/

/-- C11 is violated, for every hash function, every trie in the DB and every update that does not fail or empty the trie: after `DeleteTreeNodes` and until `SaveRoot` the saved root cannot be read, for no key. -/
theorem C11_crash_violated (hn : c.n = 256) (d : Disk) (r : Bytes) (hr : d.root = some r) (hl : r.length = 32) (hz : r ≠ List.replicate 32 0) (kvs : KVs) (rest : List KVs) (hne : kvs ≠ [])
    (tr1 : Trie) (he : d.trie.update c kvs = some tr1) (hr1 : tr1.root ≠ []) : ∃ d' ∈ updateSMT c d (kvs :: rest), ∀ key, d'.read c key = none := by
  have hroot : d.trie.root = r := by simp [Disk.trie, newTrie, hr]
  refine ⟨⟨tr1.commit.st.db, d.root⟩, ?_, fun key => ?_⟩
  · simp [updateSMT, bundleDisks, he]
  · have h := trie_root_removed hn (by rw [hroot]; exact hl) (by rw [hroot]; exact hz) hne he hr1
    rw [hroot] at h
    unfold Disk.read Disk.trie
    rw [hr]
    show Option.map _ ((newTrie r tr1.commit.st.db).get c key) = none
    rw [get_none hn hl h key]
    rfl

theorem update_none {root : Bytes} {db : Bytes → Option Bytes} (hn : c.n = 256) (hl : root.length = 32) (hdb : db root = none) {kvs : KVs} (hne : kvs ≠ []) : (newTrie root db).update c kvs = none := by
  unfold Trie.update
  rw [if_neg (by simpa using hne), hn]
  have h2 : root.take 32 = root := List.take_of_length_le (by omega)
  match kvs, hne with
  | kv :: kvs, _ =>
    simp only [update]
    have : loadChildren c (newTrie root db).root (255 + 1) 0 [] (newTrie root db).st = none := by
      unfold loadChildren loadBatch
      rw [if_pos rfl, if_neg (by show ¬ root.length = 0; omega)]
      simp only [newTrie, h2, hdb]
    rw [this]

/-- After such a crash the updater does not recover: started again with any dirty domains, `UpdateSMT` fails before it writes anything, and so it does each time. -/
theorem C11_stuck_violated (hn : c.n = 256) (d : Disk) (r : Bytes) (hr : d.root = some r) (hl : r.length = 32) (hz : r ≠ List.replicate 32 0) (kvs : KVs) (rest : List KVs) (hne : kvs ≠ [])
    (tr1 : Trie) (he : d.trie.update c kvs = some tr1) (hr1 : tr1.root ≠ []) : ∃ d' ∈ updateSMT c d (kvs :: rest), ∀ kvs' rest', kvs' ≠ [] → updateSMT c d' (kvs' :: rest') = [d'] := by
  have hroot : d.trie.root = r := by simp [Disk.trie, newTrie, hr]
  refine ⟨⟨tr1.commit.st.db, d.root⟩, ?_, fun kvs' rest' hne' => ?_⟩
  · simp [updateSMT, bundleDisks, he]
  · have h := trie_root_removed hn (by rw [hroot]; exact hl) (by rw [hroot]; exact hz) hne he hr1
    rw [hroot] at h
    have h2 : (Disk.trie ⟨tr1.commit.st.db, d.root⟩).update c kvs' = none := by
      unfold Disk.trie
      rw [hr]
      exact update_none hn hl h hne'
    simp [updateSMT, bundleDisks, h2]

/-- C11 is violated also without a crash during `UpdateSMT`: if it runs again with the same values (for instance since the process ended before the dirty domains were removed), for every hash function and every trie, the root that it saves cannot be read any more. -/
theorem C11_rerun_violated (hn : c.n = 256) (d : Disk) (r : Bytes) (hr : d.root = some r) (hl : r.length = 32) (hz : r ≠ List.replicate 32 0) (kvs : KVs) (hne : kvs ≠ [])
    (tr1 : Trie) (he : d.trie.update c kvs = some tr1) (hr1 : tr1.root = r) : ∃ d', (updateSMT c d [kvs]).getLast? = some d' ∧ d'.root = some r ∧ ∀ key, d'.read c key = none := by
  have hroot : d.trie.root = r := by simp [Disk.trie, newTrie, hr]
  have hne' : r.length ≠ 0 := by omega
  have hne1 : tr1.commit.resetLive.root = r := hr1
  refine ⟨⟨tr1.commit.st.db, some r⟩, ?_, rfl, fun key => ?_⟩
  · simp only [updateSMT, List.isEmpty_cons, bundleDisks, he, hne1]
    rw [if_pos hne']
    rfl
  · have h := C10_same_root_violated hn (by rw [hroot]; exact hl) (by rw [hroot]; exact hz) hne he (by rw [hr1, hroot]) key
    unfold Disk.read Disk.trie
    show Option.map _ ((newTrie r tr1.commit.st.db).get c key) = none
    rw [← hr1]
    have h' : (newTrie tr1.root tr1.commit.st.db).get c key = none := h
    rw [h']
    rfl

/-- A trie with two keys, in the DB. -/
def exTr : Trie := (life exCfg (exOps.take 3)).getD (newTrie [] (fun _ => none))

def exDisk : Disk := ⟨exTr.st.db, some exTr.root⟩

theorem exists_of_map {α β : Type} {o : Option α} {f : α → β} {b : β} (h : o.map f = some b) : ∃ a, o = some a ∧ f a = b := by
  cases o with
  | none => cases h
  | some a => exact ⟨a, rfl, by simpa using h⟩

/-- The hypotheses of `C11_crash_violated` and `C11_stuck_violated` hold for the second batch of `exOps` (one value changed and one key added). -/
example : ∃ r tr1, exCfg.n = 256 ∧ exDisk.root = some r ∧ r.length = 32 ∧ r ≠ List.replicate 32 0 ∧ exDisk.read exCfg (b32 0x08) = some (some (b32 2)) ∧
    exDisk.trie.update exCfg [(b32 0x08, some (b32 3)), (b32 0x80, some (b32 4))] = some tr1 ∧ tr1.root ≠ [] := by
  have h : (exDisk.trie.update exCfg [(b32 0x08, some (b32 3)), (b32 0x80, some (b32 4))]).map (fun t => t.root.length) = some 32 := by decide +kernel
  obtain ⟨tr1, h1, h2⟩ := exists_of_map h
  exact ⟨exTr.root, tr1, rfl, rfl, by decide +kernel, by decide +kernel, by decide +kernel, h1, fun h => by rw [h] at h2; cases h2⟩

/-- The hypotheses of `C11_rerun_violated` hold for the first batch of `exOps`. -/
example : ∃ r tr1, exDisk.root = some r ∧ r.length = 32 ∧ r ≠ List.replicate 32 0 ∧ exDisk.read exCfg (b32 0x08) = some (some (b32 2)) ∧
    exDisk.trie.update exCfg [(b32 0x00, some (b32 1)), (b32 0x08, some (b32 2))] = some tr1 ∧ tr1.root = r := by
  have h : (exDisk.trie.update exCfg [(b32 0x00, some (b32 1)), (b32 0x08, some (b32 2))]).map (fun t => t.root) = some exTr.root := by decide +kernel
  obtain ⟨tr1, h1, h2⟩ := exists_of_map h
  exact ⟨exTr.root, tr1, rfl, by decide +kernel, by decide +kernel, by decide +kernel, h1, h2⟩

/-! ## What holds -/

/-- The disk of a trie between two runs of `UpdateSMT`. -/
def diskOf (tr : Trie) : Disk := ⟨tr.st.db, if tr.root = [] then none else some tr.root⟩

theorem diskOf_trie (tr : Trie) : (diskOf tr).trie = newTrie tr.root tr.st.db := by
  unfold diskOf Disk.trie
  by_cases h : tr.root = []
  · simp [h]
  · simp [h]

/-- The bundles as operations. -/
def bundleOps (bundles : List KVs) : List Op := bundles.flatMap (fun kvs => [.write kvs, .reset])

theorem batches_append (a b : List Op) : batches (a ++ b) = batches a ++ batches b := by simp [batches]

theorem batches_bundleOps : ∀ bundles, batches (bundleOps bundles) = bundles
  | [] => rfl
  | kvs :: rest => by
    have := batches_bundleOps rest
    simp only [bundleOps, List.flatMap_cons] at this ⊢
    rw [batches_append, this]
    rfl

/-- The last disk of a run is that of the trie after all bundles. -/
theorem bundleDisks_last (saved : Option Bytes) : ∀ (bundles : List KVs) (tr tr' : Trie), bundles.foldl (fun t kvs => t.bind (fun t => (t.update c kvs).map (fun t => t.commit.resetLive))) (some tr) = some tr' → tr'.root ≠ [] →
    (bundleDisks c saved tr bundles).getLast? = some (diskOf tr')
  | [], tr, tr', h, hr => by
    simp at h
    subst h
    simp [bundleDisks, diskOf, hr]
  | kvs :: rest, tr, tr', h, hr => by
    rw [List.foldl_cons] at h
    unfold bundleDisks
    cases hu : tr.update c kvs with
    | none =>
      simp [hu] at h
      exfalso
      have : ∀ (l : List KVs), l.foldl (fun t kvs => t.bind (fun t => (t.update c kvs).map (fun t => t.commit.resetLive))) (none : Option Trie) = none := by
        intro l; induction l with
        | nil => rfl
        | cons a l ih => rw [List.foldl_cons]; exact ih
      rw [this] at h; cases h
    | some tr1 =>
      simp only [hu, Option.bind_some, Option.map_some] at h
      have := bundleDisks_last saved rest _ tr' h hr
      simp only
      rw [List.getLast?_cons_cons]
      cases hb : bundleDisks c saved tr1.commit.resetLive rest with
      | nil => rw [hb] at this; cases this
      | cons a l => rw [List.getLast?_cons_cons, ← hb]; exact this

theorem lifeFrom_bundles (c : Cfg) : ∀ (bundles : List KVs) (tr tr' : Trie), lifeFrom c tr (bundleOps bundles) = some tr' →
    bundles.foldl (fun t kvs => t.bind (fun t => (t.update c kvs).map (fun t => t.commit.resetLive))) (some tr) = some tr' := by
  intro bundles
  have : ∀ (bundles : List KVs) (o : Option Trie), (bundleOps bundles).foldl (fun tr op => tr.bind (fun tr => op.exec c tr)) o =
      bundles.foldl (fun t kvs => t.bind (fun t => (t.update c kvs).map (fun t => t.commit.resetLive))) o := by
    intro bundles
    induction bundles with
    | nil => intro o; rfl
    | cons kvs rest ih =>
      intro o
      show (Op.write kvs :: Op.reset :: bundleOps rest).foldl _ o = _
      rw [List.foldl_cons, List.foldl_cons, List.foldl_cons, ih]
      congr 1
      cases o with
      | none => rfl
      | some t =>
        show (Option.map Trie.commit (t.update c kvs)).bind _ = Option.map _ (t.update c kvs)
        cases t.update c kvs <;> rfl
  intro tr tr' h
  rw [← this]
  exact h

theorem read_of_idle {Hp : Bytes → Prop} (hA : NoAccident c.H Hp) (hn : c.n = 256) {hist : List KVs} (hv : ValidHist 256 hist) (he : EdgeHist hist) {d : Disk} (hi : Idle c Hp (run 256 hist) d.trie) {k : Key} (hk : k.length = 32) :
    d.read c k = some (mapAfter hist k) := by
  obtain ⟨s, h⟩ := hi.get hA hn k
  unfold Disk.read
  rw [h, (Smt.goodHist_of_edge hv he).spec.2 k (by omega)]
  rfl

/-- C11 for a run of `UpdateSMT` that ends: the DB then has the content after all bundles. (`tr` is any trie with a history, the bundles are as in `C10_committed_partial`.) -/
theorem C11_complete_partial (hn : c.n = 256) (ops : List Op) (bundles : List KVs) (hb : bundles ≠ []) (hv : ValidHist 256 (batches ops ++ bundles)) (he : EdgeHist (batches ops ++ bundles)) (hs : SizedHist (batches ops ++ bundles))
    (hc : Changing (fun _ => none) (batches ops ++ bundles)) (ht : NoTwins (batches ops ++ bundles)) (hA : NoAccident c.H (Hashed c.H (batches ops ++ bundles))) (hfull : ∃ k, k.length = 32 ∧ mapAfter (batches ops ++ bundles) k ≠ none)
    (tr : Trie) (hl : life c ops = some tr) : ∃ d, (updateSMT c (diskOf tr) bundles).getLast? = some d ∧ ∀ k, k.length = 32 → d.read c k = some (mapAfter (batches ops ++ bundles) k) := by
  obtain ⟨tr', h1, h2⟩ := idle_life hA hn (ops ++ [.restart] ++ bundleOps bundles) (by rw [batches_append, batches_append, batches_bundleOps]; simpa [batches] using hv) (by rw [batches_append, batches_append, batches_bundleOps]; simpa [batches] using he)
    (by rw [batches_append, batches_append, batches_bundleOps]; simpa [batches] using hs) (by rw [batches_append, batches_append, batches_bundleOps]; simpa [batches] using hc) (by rw [batches_append, batches_append, batches_bundleOps]; simpa [batches] using ht)
    (fun x hx => by rw [batches_append, batches_append, batches_bundleOps] at hx; simpa [batches] using hx)
  have hbs : batches (ops ++ [.restart] ++ bundleOps bundles) = batches ops ++ bundles := by rw [batches_append, batches_append, batches_bundleOps]; simp [batches]
  rw [hbs] at h2
  have hlf : lifeFrom c (newTrie tr.root tr.st.db) (bundleOps bundles) = some tr' := by
    have : life c (ops ++ [.restart] ++ bundleOps bundles) = (bundleOps bundles).foldl (fun tr op => tr.bind (fun tr => op.exec c tr)) (life c (ops ++ [.restart])) := by
      unfold life lifeFrom; rw [List.foldl_append]
    rw [this, life_snoc, hl] at h1
    exact h1
  have hne : tr'.root ≠ [] := by
    intro h0
    obtain ⟨k, hk, hk'⟩ := hfull
    apply hk'
    rw [← (Smt.goodHist_of_edge hv he).spec.2 k (by omega)]
    have hr := h2.root
    by_cases he' : run 256 (batches ops ++ bundles) = .empty
    · rw [he']; rfl
    · rw [if_neg he', h0] at hr
      obtain ⟨_, _, h3⟩ := rootOk_hash hA h2.rootOk he'
      rw [h0] at h3
      exact absurd rfl h3
  have hlast := bundleDisks_last (diskOf tr).root bundles _ tr' (lifeFrom_bundles c bundles _ _ hlf) hne
  refine ⟨diskOf tr', ?_, fun k hk => ?_⟩
  · unfold updateSMT
    rw [if_neg (by simpa using hb), diskOf_trie]
    cases hd : bundleDisks c (diskOf tr).root (newTrie tr.root tr.st.db) bundles with
    | nil => rw [hd] at hlast; cases hlast
    | cons a l => rw [List.getLast?_cons_cons, ← hd]; exact hlast
  · exact read_of_idle hA hn hv he (by rw [diskOf_trie]; exact h2.restart) hk

/-- C11 up to the first `DeleteTreeNodes`: a crash at the start, or after the first `UpdateTreeNodes`, leaves the old content readable. -/
theorem C11_before_delete_partial (hn : c.n = 256) (ops : List Op) (kvs : KVs) (rest : List KVs) (hne : kvs ≠ []) (hv : ValidHist 256 (batches ops ++ [kvs])) (he : EdgeHist (batches ops ++ [kvs])) (hs : SizedHist (batches ops ++ [kvs]))
    (hc : Changing (fun _ => none) (batches ops ++ [kvs])) (ht : NoTwins (batches ops ++ [kvs])) (hA : NoAccident c.H (Hashed c.H (batches ops ++ [kvs])))
    (tr : Trie) (hl : life c ops = some tr) : 2 ≤ (updateSMT c (diskOf tr) (kvs :: rest)).length ∧ ∀ d ∈ (updateSMT c (diskOf tr) (kvs :: rest)).take 2, ∀ k, k.length = 32 → d.read c k = some (mapAfter (batches ops) k) := by
  have hv0 : ValidHist 256 (batches ops) := fun k hk => hv k (List.mem_append_left _ hk)
  have he0 : EdgeHist (batches ops) := fun k hk => he k (List.mem_append_left _ hk)
  obtain ⟨tr', h1, h2⟩ := idle_life hA hn ops hv0 he0 (fun k hk => hs k (List.mem_append_left _ hk)) (changing_snoc hc).1 (fun k hk p hp k' hk' => ht k (List.mem_append_left _ hk) p hp k' (List.mem_append_left _ hk')) (fun x hx => hx.mono)
  rw [hl] at h1
  cases h1
  obtain ⟨hg, _⟩ := good1_of_hist hne hv he hs hc ht (fun x hx => hx)
  obtain ⟨tr1, e1, _, _, e2, _, _⟩ := commit_ok hA hn h2.restart hg
  have hd : updateSMT c (diskOf tr) (kvs :: rest) = diskOf tr :: ⟨written tr1.st, (diskOf tr).root⟩ :: ⟨tr1.commit.st.db, (diskOf tr).root⟩ :: bundleDisks c (diskOf tr).root tr1.commit.resetLive rest := by
    unfold updateSMT
    rw [if_neg (by simp), diskOf_trie, bundleDisks, e1]
  rw [hd]
  refine ⟨by simp, fun d hmem k hk => ?_⟩
  simp at hmem
  rcases hmem with rfl | rfl
  · exact read_of_idle hA hn hv0 he0 (by rw [diskOf_trie]; exact h2.restart) hk
  · refine read_of_idle hA hn hv0 he0 ?_ hk
    have : (Disk.trie ⟨written tr1.st, (diskOf tr).root⟩) = newTrie tr.root (written tr1.st) := by
      unfold Disk.trie diskOf
      by_cases h : tr.root = [] <;> simp [h]
    rw [this]
    exact idle_new h2.wf h2.leaves h2.pre h2.low h2.root e2

theorem bundleDisks_saved (saved : Option Bytes) : ∀ (bundles : List KVs) (tr : Trie) (d : Disk), d ∈ bundleDisks c saved tr bundles → d.root = saved ∨ (bundleDisks c saved tr bundles).getLast? = some d
  | [], tr, d, h => by
    unfold bundleDisks at h ⊢
    split at h
    · simp at h; subst h; right; rename_i h'; rw [if_pos h']; rfl
    · cases h
  | kvs :: rest, tr, d, h => by
    unfold bundleDisks at h ⊢
    split at h
    · cases h
    · rename_i tr1 _
      simp only [List.mem_cons] at h
      rcases h with rfl | rfl | h
      · exact Or.inl rfl
      · exact Or.inl rfl
      · rcases bundleDisks_saved saved rest _ d h with h1 | h1
        · exact Or.inl h1
        · right
          cases hb : bundleDisks c saved tr1.commit.resetLive rest with
          | nil => rw [hb] at h; cases h
          | cons a l => rw [List.getLast?_cons_cons, List.getLast?_cons_cons, ← hb]; exact h1

/-- C11 for the first run of `UpdateSMT`, with no root saved yet (whatever the table `tree` contains, for instance from runs that crashed): all crash points before `SaveRoot` leave an empty trie that can be read; the last disk has the content after all bundles. -/
theorem C11_first_run_partial (hn : c.n = 256) (d : Disk) (hr : d.root = none) (bundles : List KVs) (hv : ValidHist 256 bundles) (he : EdgeHist bundles) (hs : SizedHist bundles)
    (hc : Changing (fun _ => none) bundles) (ht : NoTwins bundles) (hA : NoAccident c.H (Hashed c.H bundles)) (hfull : ∃ k, k.length = 32 ∧ mapAfter bundles k ≠ none) :
    (∃ d', (updateSMT c d bundles).getLast? = some d' ∧ ∀ k, k.length = 32 → d'.read c k = some (mapAfter bundles k)) ∧
    ∀ d' ∈ updateSMT c d bundles, (∀ k, d'.read c k = some none) ∨ (∀ k, k.length = 32 → d'.read c k = some (mapAfter bundles k)) := by
  have hb : bundles ≠ [] := by
    rintro rfl
    obtain ⟨k, _, h⟩ := hfull
    exact h rfl
  have htr : d.trie = newTrie [] d.tree := by unfold Disk.trie; rw [hr]; rfl
  obtain ⟨tr', h1, h2⟩ := idle_lifeFrom (h0 := []) hA hn (idle_empty (c := c) d.tree) (bundleOps bundles) (by rw [batches_bundleOps]; exact hv) (by rw [batches_bundleOps]; exact he)
    (by rw [batches_bundleOps]; exact hs) (by rw [batches_bundleOps]; exact hc) (by rw [batches_bundleOps]; exact ht) (fun x hx => by rw [batches_bundleOps] at hx; exact hx)
  rw [batches_bundleOps, List.nil_append] at h2
  have hne : tr'.root ≠ [] := by
    intro h0
    obtain ⟨k, hk, hk'⟩ := hfull
    apply hk'
    rw [← (Smt.goodHist_of_edge hv he).spec.2 k (by omega)]
    have hr := h2.root
    by_cases he' : run 256 bundles = .empty
    · rw [he']; rfl
    · rw [if_neg he', h0] at hr
      obtain ⟨_, _, h3⟩ := rootOk_hash hA h2.rootOk he'
      rw [h0] at h3
      exact absurd rfl h3
  have hlast := bundleDisks_last d.root bundles _ tr' (lifeFrom_bundles c bundles _ _ h1) hne
  rw [← htr] at hlast
  have hread : ∀ k, k.length = 32 → (diskOf tr').read c k = some (mapAfter bundles k) := fun k hk => read_of_idle hA hn hv he (by rw [diskOf_trie]; exact h2.restart) hk
  have hempty : ∀ d' : Disk, d'.root = none → ∀ k, d'.read c k = some none := by
    intro d' hd' k
    unfold Disk.read Disk.trie Trie.get
    rw [hd', get]
    rfl
  refine ⟨⟨diskOf tr', ?_, hread⟩, fun d' hmem => ?_⟩
  · unfold updateSMT
    rw [if_neg (by simpa using hb)]
    cases hd : bundleDisks c d.root d.trie bundles with
    | nil => rw [hd] at hlast; cases hlast
    | cons a l => rw [List.getLast?_cons_cons, ← hd]; exact hlast
  · unfold updateSMT at hmem
    rw [if_neg (by simpa using hb)] at hmem
    simp only [List.mem_cons] at hmem
    rcases hmem with rfl | hmem
    · exact Or.inl (hempty _ hr)
    · rcases bundleDisks_saved d.root bundles _ d' hmem with h | h
      · exact Or.inl (hempty _ (by rw [h, hr]))
      · rw [hlast] at h
        cases h
        exact Or.inr hread

/-- The hypotheses of `C11_complete_partial` hold for the life of `exOps` up to the restart and two bundles; those of `C11_before_delete_partial` up to the last update; those of `C11_first_run_partial` for all batches as bundles. -/
example : batches (exOps.take 3) ++ (batches exOps).drop 1 = batches exOps ∧ batches (exOps.take 6) ++ [[(b32 0x80, none)]] = batches exOps ∧
    ((ValidHist 256 (batches exOps) ∧ EdgeHist (batches exOps) ∧ SizedHist (batches exOps) ∧ Changing (fun _ => none) (batches exOps) ∧ NoTwins (batches exOps)) ∧ NoAccident exCfg.H (Hashed exCfg.H (batches exOps))) ∧
    (∃ k, k.length = 32 ∧ mapAfter (batches exOps) k ≠ none) ∧ (∃ tr, life exCfg (exOps.take 3) = some tr) ∧ (∃ tr, life exCfg (exOps.take 6) = some tr) := by
  refine ⟨rfl, rfl, ⟨exOps_ok, exNoAccident⟩, ⟨b32 0x08, rfl, by decide +kernel⟩, ?_, ?_⟩
  · exact Option.isSome_iff_exists.1 (by decide +kernel)
  · exact Option.isSome_iff_exists.1 (by decide +kernel)

end Fpki.SmtStore
