import Verif.Model.Admin
/-!
# C212: trees created by the admin client
-/
namespace Fpki.Admin

/-- The log server never uses an ID twice (and does not use the IDs of trees that are there). -/
def FreshIds (w : World) (l : List (Config × Env)) : Prop :=
  (w.trees.map (·.id) ++ l.filterMap (fun p => p.2.created)).Nodup

theorem create_cases (c : Config) (w : World) (e : Env) :
    (createNewTree c w e = (w, none)) ∨
    (∃ id, e.created = some id ∧ 0 < c.rpcMaxWait ∧ (createNewTree c w e).1.trees = w.trees ++ [request c id] ∧ (∀ i, i ≠ id → (createNewTree c w e).1.files i = w.files i) ∧
      ((createNewTree c w e).2 = none ∨ (createNewTree c w e).2 = some (request c id) ∧ (createNewTree c w e).1.files id = some (some (request c id)))) := by
  unfold createNewTree
  cases hc : e.created with
  | none => exact .inl rfl
  | some id =>
    by_cases h0 : c.rpcMaxWait ≤ 0
    · simp [h0]
    · refine .inr ⟨id, rfl, by omega, ?_⟩
      simp only [h0, if_false, writeTreeToFile]
      cases hi : e.inits <;> cases hw : e.writes <;> cases hn : e.incomplete <;>
        simp +contextual [request]

/-- **C212** (one call, in part): a tree that is returned is on the log server: an active log with the name and the description of the configuration; its file
has it; nothing else has changed, neither trees nor files. -/
theorem C212_created_partial (c : Config) (w : World) (e : Env) (t : Tree) (h : (createNewTree c w e).2 = some t) :
    (createNewTree c w e).1.trees = w.trees ++ [t] ∧ t.active = true ∧ t.log = true ∧ t.displayName = c.displayName ∧ t.description = c.description ∧
    (createNewTree c w e).1.files t.id = some (some t) ∧ ∀ i, i ≠ t.id → (createNewTree c w e).1.files i = w.files i := by
  rcases create_cases c w e with h1 | ⟨id, _, _, h1, h2, h3 | ⟨h3, h4⟩⟩
  · rw [h1] at h; cases h
  · rw [h3] at h; cases h
  · rw [h3] at h
    cases h
    exact ⟨h1, rfl, rfl, rfl, rfl, h4, h2⟩

theorem calls_trees (l : List (Config × Env)) : ∀ (w : World), ∃ ts, (calls w l).1.trees = w.trees ++ ts ∧ ∀ t ∈ ts, t.id ∈ l.filterMap (fun p => p.2.created) := by
  induction l with
  | nil => exact fun w => ⟨[], by simp [calls], by simp⟩
  | cons p l ih =>
    intro w
    obtain ⟨c, e⟩ := p
    obtain ⟨ts, h1, h2⟩ := ih (createNewTree c w e).1
    rcases create_cases c w e with h3 | ⟨id, hid, _, h3, _, _⟩
    · refine ⟨ts, by simp only [calls, h1]; rw [h3], fun t ht => ?_⟩
      have := h2 t ht
      simp only [List.filterMap_cons]
      split
      · exact this
      · exact List.mem_cons_of_mem _ this
    · refine ⟨request c id :: ts, by simp [calls, h1, h3], fun t ht => ?_⟩
      simp only [List.filterMap_cons, hid]
      rcases List.mem_cons.1 ht with rfl | ht
      · exact List.mem_cons_self
      · exact List.mem_cons_of_mem _ (h2 t ht)

theorem calls_other_files (l : List (Config × Env)) : ∀ (w : World) (i : Int), i ∉ l.filterMap (fun p => p.2.created) → (calls w l).1.files i = w.files i := by
  induction l with
  | nil => intro w i _; rfl
  | cons p l ih =>
    intro w i hi
    obtain ⟨c, e⟩ := p
    have h1 : i ∉ l.filterMap (fun p => p.2.created) := by
      intro hh
      apply hi
      simp only [List.filterMap_cons]
      split
      · exact hh
      · exact List.mem_cons_of_mem _ hh
    have h2 : (calls w ((c, e) :: l)).1.files i = (createNewTree c w e).1.files i := by simp only [calls]; exact ih _ i h1
    rw [h2]
    rcases create_cases c w e with h3 | ⟨id, hid, _, _, h4, _⟩
    · rw [h3]
    · refine h4 i fun e' => hi ?_
      simp [List.filterMap_cons, hid, e']

/-- **C212** (histories): after any calls, of which any can have failed in any way, every tree that was returned by one of them is on the log server, and its
file still has it. -/
theorem C212_files (l : List (Config × Env)) : ∀ (w : World), FreshIds w l → ∀ t, some t ∈ (calls w l).2 →
    t ∈ (calls w l).1.trees ∧ (calls w l).1.files t.id = some (some t) := by
  induction l with
  | nil => intro w _ t h; simp [calls] at h
  | cons p l ih =>
    intro w hf t h
    obtain ⟨c, e⟩ := p
    simp only [calls, List.mem_cons] at h ⊢
    have hrest : FreshIds (createNewTree c w e).1 l := by
      unfold FreshIds at hf ⊢
      rcases create_cases c w e with h3 | ⟨id, hid, _, h3, _, _⟩
      · rw [h3]
        refine hf.sublist ((List.Sublist.refl _).append ?_)
        simp only [List.filterMap_cons]
        split
        · exact List.Sublist.refl _
        · exact List.sublist_cons_self _ _
      · rw [h3]
        simp only [List.filterMap_cons, hid] at hf
        simpa [request, List.append_assoc] using hf
    rcases h with h | h
    · have h0 := C212_created_partial c w e t h.symm
      obtain ⟨ts, h1, _⟩ := calls_trees l (createNewTree c w e).1
      refine ⟨by rw [h1, h0.1]; simp, ?_⟩
      have hn : t.id ∉ l.filterMap (fun p => p.2.created) := by
        intro hh
        unfold FreshIds at hrest
        rw [h0.1] at hrest
        have := (List.nodup_append.1 hrest).2.2 t.id (by simp) t.id hh
        exact this rfl
      rw [calls_other_files l _ _ hn]
      exact h0.2.2.2.2.2.1
    · exact ih _ hrest t h

/-- **C212** is false of the code: the interval of new roots of a tree is never the one of the configuration, unless that happens to be the time to wait for
answers. In particular it is never zero, which according to the configuration means that there are no such roots. -/
theorem C212_interval_violated (c : Config) (w : World) (e : Env) (t : Tree) (h : (createNewTree c w e).2 = some t) :
    (c.maxRootDuration ≠ c.rpcMaxWait → t.maxRootDuration ≠ c.maxRootDuration) ∧ t.maxRootDuration ≠ 0 := by
  rcases create_cases c w e with h1 | ⟨id, _, h0, _, _, h3 | ⟨h3, _⟩⟩
  · rw [h1] at h; cases h
  · rw [h3] at h; cases h
  · rw [h3] at h
    cases h
    exact ⟨fun hne he => hne he.symm, by simp only [request]; omega⟩

/-- A configuration and three calls: no directory for the files, an initialisation that fails, and success. -/
def someConfig : Config := ⟨5, "fpki", "a log", 0⟩
def noDirectory : Env := ⟨some 11, true, false, false⟩
def noInit : Env := ⟨some 12, false, true, false⟩
def works : Env := ⟨some 13, true, true, false⟩
def empty : World := ⟨[], fun _ => none⟩

/-- **C212** is false of the code (errors): a call that returns an error can have created a tree on the log server, which stays there without a file. -/
theorem C212_error_violated : (createNewTree someConfig empty noDirectory).2 = none ∧ (createNewTree someConfig empty noDirectory).1.trees ≠ [] ∧
    (createNewTree someConfig empty noDirectory).1.files 11 = none := by decide +kernel

/-- What an error leaves: at most one more tree, and the files of all other trees as they were. -/
theorem C212_error_partial (c : Config) (w : World) (e : Env) (h : (createNewTree c w e).2 = none) :
    ((createNewTree c w e).1 = w) ∨ ∃ t, (createNewTree c w e).1.trees = w.trees ++ [t] ∧ e.created = some t.id ∧ ∀ i, i ≠ t.id → (createNewTree c w e).1.files i = w.files i := by
  rcases create_cases c w e with h1 | ⟨id, hid, _, h1, h2, _⟩
  · exact .inl (by rw [h1])
  · exact .inr ⟨request c id, h1, hid, h2⟩

/-! ## A concrete case -/

example : FreshIds empty [(someConfig, noDirectory), (someConfig, noInit), (someConfig, works)] := by unfold FreshIds; decide +kernel
example : (calls empty [(someConfig, noDirectory), (someConfig, noInit), (someConfig, works)]).2 = [none, none, some (request someConfig 13)] ∧
    ((calls empty [(someConfig, noDirectory), (someConfig, noInit), (someConfig, works)]).1.trees.map (·.id)) = [11, 12, 13] ∧
    (createNewTree someConfig empty works).2.map (·.maxRootDuration) = some 5 := by decide +kernel

end Fpki.Admin
