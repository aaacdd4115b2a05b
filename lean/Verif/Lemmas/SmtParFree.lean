import Verif.Model.SmtPar

/-!
# Programs on disjoint parts of a memory: every schedule has the result of the sequential run
-/
namespace Fpki.SmtPar

/-- The sequential run: left side first. -/
def ev : Prog → Mem → R × Mem
  | .ret r, σ => (r, σ)
  | .get l k, σ => ev (k (σ l)) σ
  | .put l v k, σ => ev k (σ.set l v)
  | .par _ _ p q k, σ => ev (k (ev p σ).1 (ev q (ev p σ).2).1) (ev q (ev p σ).2).2

/-- The sequential run only touches places in `A`, and both sides of each fork touch different places. Places in `Z` are empty and may be emptied by anyone. -/
def Safe (Z : Loc → Prop) : Prog → Mem → (Loc → Prop) → Prop
  | .ret _, _, _ => True
  | .get l k, σ, A => A l ∧ Safe Z (k (σ l)) σ A
  | .put l v k, σ, A => (A l ∨ (Z l ∧ v = .none)) ∧ Safe Z k (σ.set l v) A
  | .par _ _ p q k, σ, A => ∃ A1 A2 : Loc → Prop, (∀ l, A1 l → A l) ∧ (∀ l, A2 l → A l) ∧ (∀ l, A1 l → ¬ A2 l) ∧ Safe Z p σ A1 ∧ Safe Z q (ev p σ).2 A2 ∧
      Safe Z (k (ev p σ).1 (ev q (ev p σ).2).1) (ev q (ev p σ).2).2 A

variable {Z : Loc → Prop}

theorem set_same (σ : Mem) (l : Loc) (v : Cell) : σ.set l v l = v := by simp [Mem.set]

theorem set_other (σ : Mem) {l x : Loc} (v : Cell) (h : x ≠ l) : σ.set l v x = σ x := by simp [Mem.set, h]

/-- Everything outside of `A` is left alone. -/
theorem ev_frame : ∀ (p : Prog) (σ : Mem) (A : Loc → Prop), Safe Z p σ A → ∀ l, ¬ A l → (Z l → σ l = .none) → (ev p σ).2 l = σ l
  | .ret _, _, _, _, _, _, _ => rfl
  | .get l k, σ, A, h, x, hx, hz => ev_frame (k (σ l)) σ A h.2 x hx hz
  | .put l v k, σ, A, h, x, hx, hz => by
    have hs : σ.set l v x = σ x := by
      by_cases hxl : x = l
      · subst hxl
        rcases h.1 with h1 | ⟨h1, h2⟩
        · exact absurd h1 hx
        · rw [set_same, h2, hz h1]
      · exact set_other σ v hxl
    have := ev_frame k (σ.set l v) A h.2 x hx (fun h => by rw [hs]; exact hz h)
    rw [hs] at this
    exact this
  | .par _ _ p q k, σ, A, h, x, hx, hz => by
    obtain ⟨A1, A2, s1, s2, _, h1, h2, h3⟩ := h
    have e1 := ev_frame p σ A1 h1 x (fun h => hx (s1 x h)) hz
    have e2 := ev_frame q _ A2 h2 x (fun h => hx (s2 x h)) (fun h => by rw [e1]; exact hz h)
    have e3 := ev_frame _ _ A h3 x hx (fun h => by rw [e2, e1]; exact hz h)
    show (ev (k _ _) _).2 x = _
    rw [e3, e2, e1]

/-- Only the places in `A` matter. -/
theorem ev_local : ∀ (p : Prog) (σ σ' : Mem) (A : Loc → Prop), (∀ l, A l → ¬ Z l) → Safe Z p σ A → (∀ l, A l → σ' l = σ l) → Safe Z p σ' A ∧ (ev p σ').1 = (ev p σ).1 ∧ ∀ l, A l → (ev p σ').2 l = (ev p σ).2 l
  | .ret _, _, _, _, _, _, ha => ⟨True.intro, rfl, ha⟩
  | .get l k, σ, σ', A, hz, h, ha => by
    obtain ⟨i1, i2, i3⟩ := ev_local (k (σ l)) σ σ' A hz h.2 ha
    have hl := ha l h.1
    refine ⟨⟨h.1, by rw [hl]; exact i1⟩, ?_, ?_⟩
    · show (ev (k (σ' l)) σ').1 = _
      rw [hl]; exact i2
    · show ∀ x, A x → (ev (k (σ' l)) σ').2 x = _
      rw [hl]; exact i3
  | .put l v k, σ, σ', A, hz, h, ha => by
    obtain ⟨i1, i2, i3⟩ := ev_local k (σ.set l v) (σ'.set l v) A hz h.2 (fun x hx => by
      by_cases hxl : x = l
      · subst hxl; rw [set_same, set_same]
      · rw [set_other _ _ hxl, set_other _ _ hxl, ha x hx])
    exact ⟨⟨h.1, i1⟩, i2, i3⟩
  | .par _ _ p q k, σ, σ', A, hz, h, ha => by
    obtain ⟨A1, A2, s1, s2, hd, h1, h2, h3⟩ := h
    obtain ⟨i1, i2, i3⟩ := ev_local p σ σ' A1 (fun l h => hz l (s1 l h)) h1 (fun l h => ha l (s1 l h))
    have hq : ∀ l, A2 l → (ev p σ').2 l = (ev p σ).2 l := by
      intro l hl
      have hnz : ∀ τ : Mem, Z l → τ l = .none := fun _ h => absurd h (hz l (s2 l hl))
      rw [ev_frame p σ' A1 i1 l (fun h => hd l h hl) (hnz _), ev_frame p σ A1 h1 l (fun h => hd l h hl) (hnz _), ha l (s2 l hl)]
    obtain ⟨j1, j2, j3⟩ := ev_local q _ _ A2 (fun l h => hz l (s2 l h)) h2 hq
    have hk : ∀ l, A l → (ev q (ev p σ').2).2 l = (ev q (ev p σ).2).2 l := by
      intro l hl
      have hnz : ∀ τ : Mem, Z l → τ l = .none := fun _ h => absurd h (hz l hl)
      by_cases hl2 : A2 l
      · exact j3 l hl2
      · rw [ev_frame q _ A2 j1 l hl2 (hnz _), ev_frame q _ A2 h2 l hl2 (hnz _)]
        by_cases hl1 : A1 l
        · exact i3 l hl1
        · rw [ev_frame p _ A1 i1 l hl1 (hnz _), ev_frame p _ A1 h1 l hl1 (hnz _), ha l hl]
    obtain ⟨k1, k2, k3⟩ := ev_local _ _ _ A hz h3 hk
    refine ⟨⟨A1, A2, s1, s2, hd, i1, j1, ?_⟩, ?_, ?_⟩
    · rw [i2, j2]; exact k1
    · show (ev (k (ev p σ').1 (ev q (ev p σ').2).1) _).1 = _
      rw [i2, j2]; exact k2
    · show ∀ x, A x → (ev (k (ev p σ').1 (ev q (ev p σ').2).1) _).2 x = _
      rw [i2, j2]; exact k3

theorem safe_mono : ∀ (p : Prog) (σ : Mem) (A B : Loc → Prop), (∀ l, A l → B l) → Safe Z p σ A → Safe Z p σ B
  | .ret _, _, _, _, _, _ => True.intro
  | .get l k, σ, A, B, hab, h => ⟨hab l h.1, safe_mono _ _ A B hab h.2⟩
  | .put l v k, σ, A, B, hab, h => ⟨h.1.imp (hab l) id, safe_mono _ _ A B hab h.2⟩
  | .par _ _ p q k, σ, A, B, hab, ⟨A1, A2, s1, s2, hd, h1, h2, h3⟩ => ⟨A1, A2, fun l h => hab l (s1 l h), fun l h => hab l (s2 l h), hd, h1, h2, safe_mono _ _ A B hab h3⟩

/-! ## Any interleaving -/

/-- A step of a program whose forks always run both sides at the same time. -/
inductive FStep : Prog → Mem → Prog → Mem → Prop where
  | get (l : Loc) (k : Cell → Prog) (σ : Mem) : FStep (.get l k) σ (k (σ l)) σ
  | put (l : Loc) (v : Cell) (k : Prog) (σ : Mem) : FStep (.put l v k) σ k (σ.set l v)
  | left {nl nr : Nat} {p p' q : Prog} {k : R → R → Prog} {σ σ' : Mem} : FStep p σ p' σ' → FStep (.par nl nr p q k) σ (.par nl nr p' q k) σ'
  | right {nl nr : Nat} {p q q' : Prog} {k : R → R → Prog} {σ σ' : Mem} : FStep q σ q' σ' → FStep (.par nl nr p q k) σ (.par nl nr p q' k) σ'
  | join (nl nr : Nat) (a b : R) (k : R → R → Prog) (σ : Mem) : FStep (.par nl nr (.ret a) (.ret b) k) σ (k a b) σ

theorem fstep_keeps {p p' : Prog} {σ σ' : Mem} (hs : FStep p σ p' σ') : ∀ (A : Loc → Prop), (∀ l, A l → ¬ Z l) → (∀ l, Z l → σ l = .none) → Safe Z p σ A →
    Safe Z p' σ' A ∧ ev p' σ' = ev p σ ∧ (∀ l, ¬ A l → σ' l = σ l) := by
  induction hs with
  | get l k σ => intro A hz hc h; exact ⟨h.2, rfl, fun _ _ => rfl⟩
  | put l v k σ =>
    intro A hz hc h
    refine ⟨h.2, rfl, fun x hx => ?_⟩
    by_cases hxl : x = l
    · subst hxl
      rcases h.1 with h1 | ⟨h1, h2⟩
      · exact absurd h1 hx
      · rw [set_same, h2, hc x h1]
    · exact set_other σ v hxl
  | join nl nr a b k σ =>
    intro A hz hc h
    obtain ⟨A1, A2, s1, s2, hd, h1, h2, h3⟩ := h
    exact ⟨h3, rfl, fun _ _ => rfl⟩
  | @left nl nr p p' q k σ σ' hs ih =>
    intro A hz hc h
    obtain ⟨A1, A2, s1, s2, hd, h1, h2, h3⟩ := h
    obtain ⟨i1, i2, i3⟩ := ih A1 (fun l h => hz l (s1 l h)) hc h1
    refine ⟨⟨A1, A2, s1, s2, hd, i1, ?_, ?_⟩, ?_, fun l hl => i3 l (fun h => hl (s1 l h))⟩
    · rw [i2]; exact h2
    · rw [i2]; exact h3
    · show ev (k (ev p' σ').1 (ev q (ev p' σ').2).1) _ = _
      rw [i2]; rfl
  | @right nl nr p q q' k σ σ' hs ih =>
    intro A hz hc h
    obtain ⟨A1, A2, s1, s2, hd, h1, h2, h3⟩ := h
    have hz1 : ∀ l, A1 l → ¬ Z l := fun l h => hz l (s1 l h)
    have hz2 : ∀ l, A2 l → ¬ Z l := fun l h => hz l (s2 l h)
    -- the right side from where it really starts
    obtain ⟨a1, a2, a3⟩ := ev_local q (ev p σ).2 σ A2 hz2 h2 (fun l hl => (ev_frame p σ A1 h1 l (fun h => hd l h hl) (hc l)).symm)
    obtain ⟨i1, i2, i3⟩ := ih A2 hz2 hc a1
    have hc' : ∀ l, Z l → σ' l = .none := fun l hl => by rw [i3 l (fun h => hz2 l h hl)]; exact hc l hl
    -- the left side is not affected
    obtain ⟨b1, b2, b3⟩ := ev_local p σ σ' A1 hz1 h1 (fun l hl => i3 l (hd l hl))
    -- the right side after the left side
    obtain ⟨c1, c2, c3⟩ := ev_local q' σ' (ev p σ').2 A2 hz2 i1 (fun l hl => ev_frame p σ' A1 b1 l (fun h => hd l h hl) (hc' l))
    have hres : (ev q' (ev p σ').2).1 = (ev q (ev p σ).2).1 := by rw [c2, i2, a2]
    have hmem : (ev q' (ev p σ').2).2 = (ev q (ev p σ).2).2 := by
      funext l
      have z1 : Z l → (ev p σ').2 l = .none := fun h => by rw [ev_frame p σ' A1 b1 l (fun h' => hz1 l h' h) (hc' l)]; exact hc' l h
      have z2 : Z l → (ev p σ).2 l = .none := fun h => by rw [ev_frame p σ A1 h1 l (fun h' => hz1 l h' h) (hc l)]; exact hc l h
      by_cases hl2 : A2 l
      · rw [c3 l hl2, i2, a3 l hl2]
      · rw [ev_frame q' _ A2 c1 l hl2 z1, ev_frame q _ A2 h2 l hl2 z2]
        by_cases hl1 : A1 l
        · exact b3 l hl1
        · rw [ev_frame p σ' A1 b1 l hl1 (hc' l), ev_frame p σ A1 h1 l hl1 (hc l), i3 l hl2]
    refine ⟨⟨A1, A2, s1, s2, hd, b1, c1, ?_⟩, ?_, fun l hl => i3 l (fun h => hl (s2 l h))⟩
    · rw [b2, hres, hmem]; exact h3
    · show ev (k (ev p σ').1 (ev q' (ev p σ').2).1) _ = _
      rw [b2, hres, hmem]; rfl

/-! ## Programs end -/

def Red (p' p : Prog) : Prop := ∃ σ σ', FStep p σ p' σ'

theorem acc_par {nl nr : Nat} {k : R → R → Prog} (hk : ∀ a b, Acc Red (k a b)) : ∀ {p : Prog}, Acc Red p → ∀ {q : Prog}, Acc Red q → Acc Red (.par nl nr p q k) := by
  intro p hp
  induction hp with
  | intro p hp1 ihp =>
    intro q hq
    induction hq with
    | intro q hq1 ihq =>
      constructor
      rintro x ⟨σ, σ', hs⟩
      cases hs with
      | left h => exact ihp _ ⟨_, _, h⟩ ⟨_, hq1⟩
      | right h => exact ihq _ ⟨_, _, h⟩
      | join => exact hk _ _

theorem acc_red : ∀ p : Prog, Acc Red p
  | .ret _ => ⟨_, fun _ ⟨_, _, h⟩ => by cases h⟩
  | .get _ k => ⟨_, fun _ ⟨σ, _, h⟩ => by cases h; exact acc_red _⟩
  | .put _ _ k => ⟨_, fun _ ⟨_, _, h⟩ => by cases h; exact acc_red k⟩
  | .par _ _ p q k => acc_par (fun a b => acc_red (k a b)) (acc_red p) (acc_red q)

/-! ## Goroutines and interleavings -/

/-- The program that is left. -/
def Run.prog : Run → Prog
  | .code p => p
  | .left nl nr _ l q k => .par nl nr l.prog q k
  | .both nl nr _ l _ r k => .par nl nr l.prog r.prog k

/-- Steps that do not touch the memory are bounded by this. -/
def Prog.weight : Prog → Nat
  | .par _ _ p q _ => p.weight + q.weight + 20
  | _ => 1

def Run.weight : Run → Nat
  | .code p => p.weight
  | .left _ _ w l q _ => l.weight + q.weight + 10 + Bool.count w
  | .both _ _ wl l wr r _ => l.weight + r.weight + 5 + Bool.count wl + Bool.count wr

/-- The slots of the semaphore that the goroutines have. -/
def Run.held : Run → Nat
  | .code _ => 0
  | .left _ _ w l _ _ => Bool.count w + l.held
  | .both _ _ wl l wr r _ => Bool.count wl + l.held + (Bool.count wr + r.held)

theorem count_le (b : Bool) : Bool.count b ≤ 1 := by cases b <;> simp [Bool.count]

theorem step_sim {lim : Limits} {s t : State} (h : Step lim s t) :
    FStep s.run.prog s.mem t.run.prog t.mem ∨ (t.run.prog = s.run.prog ∧ t.mem = s.mem ∧ t.run.weight + t.ending < s.run.weight + s.ending ∧ s.ending ≤ t.ending + 1 ∧ t.ending ≤ s.ending) := by
  induction h with
  | get l k n e σ => exact Or.inl (.get l k σ)
  | put l v k n e σ => exact Or.inl (.put l v k σ)
  | first nl nr p q k n e σ =>
    have := count_le (lim.spawns nl n)
    exact Or.inr ⟨rfl, rfl, by simp only [Run.weight, Prog.weight]; omega, by simp, by simp⟩
  | second nl nr l q k n e σ =>
    have := count_le (lim.spawns nr n)
    exact Or.inr ⟨rfl, rfl, by simp only [Run.weight, Prog.weight]; omega, by simp, by simp⟩
  | second' nl nr w a q k n e σ =>
    have := count_le (lim.spawns nr n)
    exact Or.inr ⟨rfl, rfl, by simp only [Run.weight, Prog.weight]; omega, by simp, by simp⟩
  | join nl nr wl wr a b k n e σ => exact Or.inl (.join nl nr a b k σ)
  | freeLeft1 nl nr a q k n e σ => exact Or.inr ⟨rfl, rfl, by simp only [Run.weight, Bool.count]; simp, by simp, by simp⟩
  | freeLeft nl nr a wr r k n e σ => exact Or.inr ⟨rfl, rfl, by simp only [Run.weight, Bool.count]; simp, by simp, by simp⟩
  | freeRight nl nr wl l b k n e σ => exact Or.inr ⟨rfl, rfl, by simp only [Run.weight, Bool.count]; simp, by simp, by simp⟩
  | free r n e σ => exact Or.inr ⟨rfl, rfl, by simp, by simp, by simp⟩
  | inLeft1 h ih =>
    rcases ih with ih | ⟨i1, i2, i3, i4, i5⟩
    · exact Or.inl (.left ih)
    · refine Or.inr ⟨?_, i2, ?_, i4, i5⟩
      · simp only [Run.prog] at i1 ⊢; rw [i1]
      · simp only [Run.weight] at i3 ⊢; omega
  | inLeft h ih =>
    rcases ih with ih | ⟨i1, i2, i3, i4, i5⟩
    · exact Or.inl (.left ih)
    · refine Or.inr ⟨?_, i2, ?_, i4, i5⟩
      · simp only [Run.prog] at i1 ⊢; rw [i1]
      · simp only [Run.weight] at i3 ⊢; omega
  | inRight h ih =>
    rcases ih with ih | ⟨i1, i2, i3, i4, i5⟩
    · exact Or.inl (.right ih)
    · refine Or.inr ⟨?_, i2, ?_, i4, i5⟩
      · simp only [Run.prog] at i1 ⊢; rw [i1]
      · simp only [Run.weight] at i3 ⊢; omega

/-- No schedule goes on forever. -/
theorem acc_step (lim : Limits) (s : State) : Acc (fun t s => Step lim s t) s := by
  have key : ∀ p : Prog, Acc Red p → ∀ (n : Nat) (s : State), s.run.prog = p → s.run.weight + s.ending ≤ n → Acc (fun t s => Step lim s t) s := by
    intro p hp
    induction hp with
    | intro p _ ihp =>
      intro n
      induction n with
      | zero =>
        intro s hs hn
        constructor
        intro t ht
        rcases step_sim ht with h | ⟨_, _, h, _⟩
        · exact ihp _ ⟨_, _, hs ▸ h⟩ _ t rfl (Nat.le_refl _)
        · omega
      | succ n ihn =>
        intro s hs hn
        constructor
        intro t ht
        rcases step_sim ht with h | ⟨h1, _, h2, _⟩
        · exact ihp _ ⟨_, _, hs ▸ h⟩ _ t rfl (Nat.le_refl _)
        · exact ihn t (h1.trans hs) (by omega)
  exact key s.run.prog (acc_red _) _ s rfl (Nat.le_refl _)

/-- The semaphore counts the workers, and there are never more than its size. -/
theorem step_used {lim : Limits} {s t : State} (h : Step lim s t) : ∀ x, s.used = s.run.held + s.ending + x → s.used ≤ lim.cap → t.used = t.run.held + t.ending + x ∧ t.used ≤ lim.cap := by
  have hsp : ∀ n used, used ≤ lim.cap → used + Bool.count (lim.spawns n used) ≤ lim.cap := by
    intro n used hu
    unfold Limits.spawns Bool.count
    by_cases h1 : lim.min ≤ n
    · by_cases h2 : used < lim.cap
      · simp [h1, h2]; omega
      · simp [h2]; exact hu
    · simp [h1]; exact hu
  induction h with
  | get l k n e σ => intro x h1 h2; exact ⟨h1, h2⟩
  | put l v k n e σ => intro x h1 h2; exact ⟨h1, h2⟩
  | first nl nr p q k n e σ => intro x h1 h2; simp only [Run.held] at h1 h2 ⊢; exact ⟨by omega, hsp _ _ h2⟩
  | second nl nr l q k n e σ => intro x h1 h2; simp only [Run.held] at h1 h2 ⊢; exact ⟨by omega, hsp _ _ h2⟩
  | second' nl nr w a q k n e σ => intro x h1 h2; simp only [Run.held] at h1 h2 ⊢; exact ⟨by omega, hsp _ _ h2⟩
  | join nl nr wl wr a b k n e σ => intro x h1 h2; simp only [Run.held] at h1 h2 ⊢; exact ⟨by omega, h2⟩
  | freeLeft1 nl nr a q k n e σ => intro x h1 h2; simp only [Run.held, Bool.count] at h1 h2 ⊢; simp at h1 ⊢; omega
  | freeLeft nl nr a wr r k n e σ => intro x h1 h2; simp only [Run.held, Bool.count] at h1 h2 ⊢; simp at h1 ⊢; omega
  | freeRight nl nr wl l b k n e σ => intro x h1 h2; simp only [Run.held, Bool.count] at h1 h2 ⊢; simp at h1 ⊢; omega
  | free r n e σ => intro x h1 h2; simp only at h1 h2 ⊢; omega
  | @inLeft1 nl nr w q k l l' n n' e e' σ σ' h ih =>
    intro x h1 h2
    simp only [Run.held] at h1 h2 ih ⊢
    obtain ⟨i1, i2⟩ := ih (x + Bool.count w) (by omega) h2
    exact ⟨by omega, i2⟩
  | @inLeft nl nr wl wr k l l' r n n' e e' σ σ' h ih =>
    intro x h1 h2
    simp only [Run.held] at h1 h2 ih ⊢
    obtain ⟨i1, i2⟩ := ih (x + Bool.count wl + Bool.count wr + r.held) (by omega) h2
    exact ⟨by omega, i2⟩
  | @inRight nl nr wl wr k l r r' n n' e e' σ σ' h ih =>
    intro x h1 h2
    simp only [Run.held] at h1 h2 ih ⊢
    obtain ⟨i1, i2⟩ := ih (x + Bool.count wl + l.held + Bool.count wr) (by omega) h2
    exact ⟨by omega, i2⟩

/-- Some goroutine can always go on. -/
theorem run_progress (lim : Limits) : ∀ (r : Run) (n e : Nat) (σ : Mem), (∃ a, r = .code (.ret a)) ∨ ∃ t, Step lim ⟨r, n, e, σ⟩ t
  | .code (.ret a), _, _, _ => Or.inl ⟨a, rfl⟩
  | .code (.get l k), n, e, σ => Or.inr ⟨_, .get l k n e σ⟩
  | .code (.put l v k), n, e, σ => Or.inr ⟨_, .put l v k n e σ⟩
  | .code (.par nl nr p q k), n, e, σ => Or.inr ⟨_, .first nl nr p q k n e σ⟩
  | .left nl nr w l q k, n, e, σ => by
    right
    rcases run_progress lim l n e σ with ⟨a, rfl⟩ | ⟨⟨l', n', e', σ'⟩, h⟩
    · exact ⟨_, .second' nl nr w a q k n e σ⟩
    · exact ⟨_, .inLeft1 h⟩
  | .both nl nr wl l wr r k, n, e, σ => by
    right
    rcases run_progress lim l n e σ with ⟨a, rfl⟩ | ⟨⟨l', n', e', σ'⟩, h⟩
    · rcases run_progress lim r n e σ with ⟨b, rfl⟩ | ⟨⟨r', n', e', σ'⟩, h⟩
      · exact ⟨_, .join nl nr wl wr a b k n e σ⟩
      · exact ⟨_, .inRight h⟩
    · exact ⟨_, .inLeft h⟩

/-- Whatever the schedule: if the sequential run is safe, the result and the memory at the end are those of the sequential run. -/
theorem steps_keep {lim : Limits} {s t : State} (h : Steps lim s t) {A : Loc → Prop} (hz : ∀ l, A l → ¬ Z l) (hc : ∀ l, Z l → s.mem l = .none) (hs : Safe Z s.run.prog s.mem A) :
    Safe Z t.run.prog t.mem A ∧ ev t.run.prog t.mem = ev s.run.prog s.mem ∧ (∀ l, ¬ A l → t.mem l = s.mem l) := by
  induction h with
  | refl => exact ⟨hs, rfl, fun _ _ => rfl⟩
  | tail _ hst ih =>
    obtain ⟨i1, i2, i3⟩ := ih
    rcases step_sim hst with h | ⟨h1, h2, _⟩
    · obtain ⟨j1, j2, j3⟩ := fstep_keeps h A hz (fun l hl => by rw [i3 l (fun h => hz l h hl)]; exact hc l hl) i1
      exact ⟨j1, j2.trans i2, fun l hl => (j3 l hl).trans (i3 l hl)⟩
    · rw [h1, h2]; exact ⟨i1, i2, i3⟩

end Fpki.SmtPar
