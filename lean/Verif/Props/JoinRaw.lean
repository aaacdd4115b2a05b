import Verif.Model.IngestStats

/-!
# C207: the stages of a pipeline joined by JoinPipelinesRaw
-/
namespace Fpki.IngestStats
open Fpki.PipeCheck (Kind)

/-- The sources, the inner stages, and the sinks of a pipeline. -/
def ofKind (k : Kind) (p : List Stage) : List Stage := p.filter (fun s => s.kind = k)

theorem ofKind_append (k : Kind) (p q : List Stage) : ofKind k (p ++ q) = ofKind k p ++ ofKind k q := List.filter_append ..

theorem ofKind_filter (k : Kind) (f : Stage → Bool) (p : List Stage) (h : ∀ s : Stage, s.kind = k → f s = true) : ofKind k (p.filter f) = ofKind k p := by
  unfold ofKind
  rw [List.filter_filter]
  apply List.filter_congr
  intro s _
  by_cases hs : s.kind = k
  · simp [hs, h s hs]
  · simp [hs]

theorem ofKind_filter_none (k : Kind) (f : Stage → Bool) (p : List Stage) (h : ∀ s : Stage, s.kind = k → f s = false) : ofKind k (p.filter f) = [] := by
  unfold ofKind
  rw [List.filter_filter, List.filter_eq_nil_iff]
  intro s _
  by_cases hs : s.kind = k
  · simp [hs, h s hs]
  · simp [hs]

theorem ofKind_flatMap (k : Kind) (ps : List (List Stage)) (g : List Stage → List Stage) : ofKind k (ps.flatMap g) = ps.flatMap (fun p => ofKind k (g p)) := by
  induction ps with
  | nil => rfl
  | cons p ps ih => rw [List.flatMap_cons, ofKind_append, ih, List.flatMap_cons]

/-- C207: the pipeline joined from `first`, `inner` and `last` has the sources of the first, the sinks of the last, and the inner stages of all, each of them once and in order; no other source or sink is left. -/
theorem C207_stages (first last : List Stage) (inner : List (List Stage)) :
    ofKind .source (joinRaw (first :: (inner ++ [last]))) = ofKind .source first ∧
    ofKind .sink (joinRaw (first :: (inner ++ [last]))) = ofKind .sink last ∧
    ofKind .stage (joinRaw (first :: (inner ++ [last]))) = (first :: (inner ++ [last])).flatMap (ofKind .stage) := by
  have hj : joinRaw (first :: (inner ++ [last])) = first.filter (fun s => s.kind ≠ .sink) ++ (inner.flatMap (fun q => q.filter (fun s => s.kind ≠ .source ∧ s.kind ≠ .sink))) ++
      last.filter (fun s => s.kind ≠ .source) := by
    cases h : inner ++ [last] with
    | nil => simp at h
    | cons a l =>
      unfold joinRaw
      rw [← h]
      simp
  rw [hj]
  simp only [ofKind_append, ofKind_flatMap]
  refine ⟨?_, ?_, ?_⟩
  · rw [ofKind_filter .source _ first (by intro s h; simp [h]), ofKind_filter_none .source _ last (by intro s h; simp [h])]
    rw [List.flatMap_eq_nil_iff.2 (fun q _ => ofKind_filter_none _ _ q (by intro s h; simp [h]))]
    simp
  · rw [ofKind_filter_none .sink _ first (by intro s h; simp [h]), ofKind_filter .sink _ last (by intro s h; simp [h])]
    rw [List.flatMap_eq_nil_iff.2 (fun q _ => ofKind_filter_none _ _ q (by intro s h; simp [h]))]
    simp
  · rw [ofKind_filter .stage _ first (by intro s h; simp [h]), ofKind_filter .stage _ last (by intro s h; simp [h])]
    simp only [List.flatMap_cons, List.flatMap_append, List.flatMap_nil, List.append_nil, List.append_assoc]
    congr 2
    congr 1
    funext q
    exact ofKind_filter .stage _ q (by intro s h; simp [h])

/-- One pipeline alone is not changed; none gives none. -/
theorem C207_one (p : List Stage) : joinRaw [p] = p ∧ joinRaw [] = [] := ⟨rfl, rfl⟩

/-- Three pipelines, the first with a sink in its middle. -/
example : joinRaw [[⟨.source, false⟩, ⟨.sink, true⟩, ⟨.stage, true⟩], [⟨.source, true⟩, ⟨.stage, false⟩, ⟨.sink, true⟩], [⟨.source, true⟩, ⟨.stage, true⟩, ⟨.sink, false⟩, ⟨.sink, true⟩]] =
    [⟨.source, false⟩, ⟨.stage, true⟩, ⟨.stage, false⟩, ⟨.stage, true⟩, ⟨.sink, false⟩, ⟨.sink, true⟩] := by
  decide

end Fpki.IngestStats
