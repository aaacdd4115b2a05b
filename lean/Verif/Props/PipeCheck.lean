import Verif.Model.PipeCheck

/-!
# C198: which pipelines `NewPipeline` accepts
-/
namespace Fpki.PipeCheck

theorem find_first {k : Kind} {l : List Kind} {i : Nat} (h : l.findIdx? (fun x => x = k) = some i) : l[i]? = some k ∧ ∀ j < i, l[j]? ≠ some k := by
  rw [List.findIdx?_eq_some_iff_getElem] at h
  obtain ⟨hi, h1, h2⟩ := h
  refine ⟨by rw [List.getElem?_eq_getElem hi]; simpa using h1, fun j hj e => ?_⟩
  rw [List.getElem?_eq_getElem (by omega)] at e
  have := h2 j hj
  simp only [Option.some.injEq] at e
  simp [e] at this

theorem find_none {k : Kind} {l : List Kind} : l.findIdx? (fun x => x = k) = none ↔ k ∉ l := by
  rw [List.findIdx?_eq_none_iff]
  constructor
  · intro h hk; simpa using h k hk
  · intro h x hx
    simp only [decide_eq_false_iff_not]
    rintro rfl
    exact h hx

/-- C198: `NewPipeline` returns an error exactly if there is no source or no sink among the stages; otherwise the source and the sink of the pipeline are the first ones. -/
theorem C198_check (stages : List Kind) :
    ((∃ i j, check stages = .ok (i, j)) ↔ Kind.source ∈ stages ∧ Kind.sink ∈ stages) ∧
    (∀ i j, check stages = .ok (i, j) → stages[i]? = some .source ∧ (∀ m < i, stages[m]? ≠ some .source) ∧ stages[j]? = some .sink ∧ ∀ m < j, stages[m]? ≠ some .sink) ∧
    (check stages = .error .noSource ↔ Kind.source ∉ stages) := by
  unfold check
  cases h1 : stages.findIdx? (fun k => k = .source) with
  | none =>
    have hn := find_none.1 h1
    refine ⟨⟨?_, fun h => absurd h.1 hn⟩, ?_, fun _ => hn, fun _ => rfl⟩
    · rintro ⟨i, j, h⟩; cases h
    · intro i j h; cases h
  | some i =>
    have hs := find_first h1
    have hm := List.mem_of_getElem? hs.1
    cases h2 : stages.findIdx? (fun k => k = .sink) with
    | none =>
      have hn := find_none.1 h2
      refine ⟨⟨?_, fun h => absurd h.2 hn⟩, ?_, (by intro h; cases h), fun h => absurd hm h⟩
      · rintro ⟨i, j, h⟩; cases h
      · intro i j h; cases h
    | some j =>
      have hk := find_first h2
      refine ⟨⟨fun _ => ⟨hm, List.mem_of_getElem? hk.1⟩, fun _ => ⟨i, j, rfl⟩⟩, ?_, (by intro h; cases h), fun h => absurd hm h⟩
      intro i' j' h
      cases h
      exact ⟨hs.1, hs.2, hk.1, hk.2⟩

/-- **C198 is violated**: a pipeline whose first stage is not its source and whose last one is not its sink is accepted, and then `SourceStage` and `SinkStage` panic. -/
theorem C198_ends_violated : ∃ stages i j, check stages = .ok (i, j) ∧ sourceStage stages = none ∧ sinkStage stages = none :=
  ⟨[.sink, .stage, .source], 2, 0, (by rfl), (by decide +kernel), (by decide +kernel)⟩

/-- **C198, what holds**: a pipeline that begins with a source and ends with a sink is accepted, and if it has no other ones, then its source and sink are those that `SourceStage` and `SinkStage`
return. -/
theorem C198_ends_partial (middle : List Kind) (h1 : Kind.source ∉ middle) (h2 : Kind.sink ∉ middle) :
    ∃ i j, check (.source :: middle ++ [.sink]) = .ok (i, j) ∧ sourceStage (.source :: middle ++ [.sink]) = some i ∧ sinkStage (.source :: middle ++ [.sink]) = some j := by
  obtain ⟨i, j, h⟩ := (C198_check (.source :: middle ++ [.sink])).1.2 ⟨by simp, by simp⟩
  obtain ⟨a, b, c, d⟩ := (C198_check (.source :: middle ++ [.sink])).2.1 i j h
  have hi : i = 0 := by
    rcases Nat.eq_zero_or_pos i with e | e
    · exact e
    · exact absurd (by simp) (b 0 e)
  have hl : ((.source :: middle ++ [.sink] : List Kind))[middle.length + 1]? = some .sink := by simp
  have hj : j = middle.length + 1 := by
    rcases Nat.lt_trichotomy j (middle.length + 1) with e | e | e
    · cases j with
      | zero => simp at c
      | succ j =>
        have e' : j < middle.length := by omega
        rw [List.cons_append, List.getElem?_cons_succ, List.getElem?_append_left e'] at c
        exact absurd (List.mem_of_getElem? c) h2
    · exact e
    · exact absurd hl (d _ e)
  refine ⟨i, j, h, ?_, ?_⟩
  · rw [hi]; rfl
  · unfold sinkStage
    have e : (.source :: middle ++ [.sink] : List Kind).length - 1 = middle.length + 1 := by simp
    rw [e, if_pos hl, hj]

example : check [.source, .stage, .stage, .sink] = .ok (0, 3) := rfl

end Fpki.PipeCheck
