import Verif.RunLemmas

/-! # Facts about histories, proved from the specification relations -/

namespace Hsm
section
variable {P W : Type} {M : Machine} {sem : Sem P W}

theorem Turn.same_of_none {deps : List Dep} {ev : EventTy} {pl pl' : P} {s s1 s' : SM P W}
    {os : List RegionOut} (h : Turn M sem deps ev pl s os pl' s1 s')
    (hn : ∀ o ∈ os, o = RegionOut.none) : s' = s := by
  cases h with
  | quiet h _ => exact (h.none hn).1
  | react h hy _ => exact absurd (hn _ hy.2) (by simp)

/-- Induction over histories in terms of the specification relations. -/
theorem RunTo.rel (hM : M.Regular) {d : Dep} {I : List (Op P) → SM P W → Prop}
    (base : ∀ w s, construct M d w = .ok s → I [] s)
    (event : ∀ ops s ev pl b s', RunTo M sem d ops s → I ops s → ev ∈ M.events →
      EventRun M sem (depsOf d ops) d ev pl s b s' → I (ops ++ [.process ev pl]) s')
    (throw : ∀ ops s ev pl k s', RunTo M sem d ops s → I ops s → ev ∈ M.events →
      EventThrow M sem (depsOf d ops) d ev pl s k s' → I (ops ++ [.process ev pl]) s')
    (same : ∀ ops s op, RunTo M sem d ops s → I ops s → OpOk M op →
      (∀ d', op ≠ .setDependency d') → I (ops ++ [op]) s)
    (set : ∀ ops s r p st, RunTo M sem d ops s → I ops s → p ∈ M.composites → st ∈ M.states →
      r % 256 < M.maxInit →
      I (ops ++ [.set r p st]) { s with cur := s.cur.set (r % 256) (some (M.comb p st)) })
    (dep : ∀ ops s d' T, RunTo M sem d ops s → I ops s →
      TableIs M (d' :: depsOf d ops) { s with table := T } →
      I (ops ++ [.setDependency d']) { s with table := T })
    (world : ∀ ops s w, I ops s → I ops { s with world := w })
    {ops : List (Op P)} {s : SM P W} (h : RunTo M sem d ops s) : I ops s := by
  induction h with
  | init h => exact base _ _ h
  | @ok s s' ops op fuel b hr hop h ih =>
    cases op with
    | process ev pl => exact event _ _ _ _ _ _ hr ih hop.event (processEvent_ok hM hop.event (hr.ready hM) h)
    | set r p st =>
      obtain ⟨⟨⟩, s1, h1, h2⟩ := Res.bind_ok.1 h
      unfold setOp at h1
      split at h1
      · rename_i hlt
        cases h1; cases h2
        exact set _ _ _ _ _ hr ih hop.place.1 hop.place.2 (by rw [← (hr.reach.basic hM).curLen]; exact hlt)
      · cases h1
    | setDependency d' =>
      have hr' := RunTo.ok hr hop h
      obtain ⟨⟨⟩, s1, h1, h2⟩ := Res.bind_ok.1 h
      unfold Hsm.setDependency at h1
      split at h1
      · cases h1; cases h2
        exact dep _ _ _ _ hr ih (by rw [← depsOf_dep]; exact (hr'.tables hM).1)
      · cases h1
  | @throw s s' ops op fuel x hr hop h ih =>
    cases op with
    | process ev pl =>
      rcases processEvent_throw hM hop.event (hr.ready hM) h with ⟨k, rfl, hk⟩ | ⟨_, _, os, pl', ht, hn⟩
      · exact throw _ _ _ _ _ _ hr ih hop.event hk
      · rw [ht.same_of_none hn]
        exact same _ _ _ hr ih hop (by simp)
    | set r p st =>
      rcases Res.bind_throw.1 h with h1 | ⟨_, _, _, h2⟩
      · unfold setOp at h1
        split at h1
        · cases h1
        · cases h1
          exact same _ _ _ hr ih hop (by simp)
      · cases h2
    | setDependency d' =>
      rcases Res.bind_throw.1 h with h1 | ⟨_, _, _, h2⟩
      · unfold Hsm.setDependency at h1
        split at h1 <;> cases h1
      · cases h2
  | world hr w ih => exact world _ _ _ ih

/-! ## What region 0 remembers for a composite lies in that composite -/

/-- What is remembered for composite `p` and region 0 is a location in `p`. -/
def HistIn (M : Machine) (s : SM P W) : Prop :=
  ∀ p ∈ M.composites, ∀ c, Remembers M s p 0 c → ∃ st ∈ M.states, c = M.comb p st

theorem Moves.histIn {r : Nat} {t : XRow} {s s' : SM P W} (hm : Moves M r t s s')
    (h : HistIn M s) : HistIn M s' := by
  intro p hp c hc
  rcases hm.memory with ⟨_, he⟩ | ⟨_, p0, st0, c0, ha, hc0, hrem, hoth⟩
  · exact h p hp c (by unfold Remembers at hc ⊢; rw [← he]; exact hc)
  · by_cases hq : p ≠ p0 ∨ 0 ≠ r
    · exact h p hp c ((hoth p hp 0 hq c).1 hc)
    · have hq : p = p0 ∧ 0 = r := by simpa [not_or] using hq
      obtain ⟨rfl, rfl⟩ := hq
      obtain ⟨l, hl, hlc⟩ := hc
      obtain ⟨l', hl', hlc'⟩ := hrem
      rw [hl] at hl'; cases hl'
      rw [hlc] at hlc'; cases hlc'
      rw [ha.2.2] at hc0
      simp only [Option.some.injEq] at hc0
      exact ⟨st0, ha.2.1, hc0.symm⟩

theorem Effect.histIn {r : Nat} {t : XRow} {s s' : SM P W} (hm : Effect M r t s s')
    (h : HistIn M s) : HistIn M s' := by
  unfold Effect at hm
  split at hm
  · rw [hm]; exact h
  · exact hm.histIn h

theorem Lift.histIn {deps : List Dep} :
    Lift M sem deps (fun s s' : SM P W => HistIn M s → HistIn M s') where
  refl := fun _ h => h
  trans := fun _ _ _ h1 h2 h => h2 (h1 h)
  region := by
    intro r ev pl s o pl' s' h ho hs
    cases h with
    | none => exact hs
    | rejected => exact hs
    | deferred => exact absurd rfl ho
    | fired _ _ _ _ he _ => exact he.histIn (s := s.ran _ _) hs
  throw := by
    intro r ev pl s k s' h hs
    cases h with
    | guard => exact hs
    | action _ _ _ _ he _ => exact he.histIn (s := s.ran _ _) hs

theorem RunTo.histIn (hM : M.Regular) {d : Dep} {ops : List (Op P)} {s : SM P W}
    (h : RunTo M sem d ops s) : HistIn M s := by
  refine RunTo.rel hM (I := fun _ s => HistIn M s) ?_ ?_ ?_ (fun _ _ _ _ h _ _ => h)
    (fun _ _ _ _ _ _ h _ _ _ => h) (fun _ _ _ _ _ h _ => h) (fun _ _ _ h => h) h
  · intro w s h p hp c hc
    obtain ⟨_, _, _, _, _, hh, _⟩ := construct_ok h
    obtain ⟨l, hl, hlc⟩ := hc
    rw [hh, Machine.initialTable_get hM hp] at hl
    cases hl
    rw [List.getElem?_map] at hlc
    cases hi : (M.initials p)[0]? with
    | none => rw [hi] at hlc; cases hlc
    | some i =>
      rw [hi] at hlc
      exact ⟨.st i, hM.initial_mem hp (List.mem_of_getElem? hi), by simpa using hlc.symm⟩
  · intro ops s ev pl b s' _ hs _ h
    exact Lift.histIn.event (fun _ _ _ h => h) (fun _ _ _ _ _ h => h)
      (fun _ _ _ _ _ _ _ _ h => h) h hs
  · intro ops s ev pl k s' _ hs _ h
    exact Lift.histIn.eventThrow (fun _ _ _ h => h) (fun _ _ _ _ _ h => h)
      (fun _ _ _ _ _ _ _ _ h => h) h hs

end
end Hsm
