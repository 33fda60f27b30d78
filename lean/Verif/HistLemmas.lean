import Verif.StateInv

/-! Facts that hold along histories. -/

namespace Hsm
section
variable {P W : Type} {M : Machine} {sem : Sem P W}

theorem depsOf_process (d : Dep) (ops : List (Op P)) (ev : EventTy) (p : P) :
    depsOf d (ops ++ [.process ev p]) = depsOf d ops := by
  simp [depsOf]

theorem depsOf_set (d : Dep) (ops : List (Op P)) (r : Nat) (p : Name) (st : StTy) :
    depsOf d (ops ++ [.set r p st]) = depsOf d ops := by
  simp [depsOf]

theorem depsOf_dep (d d' : Dep) (ops : List (Op P)) :
    depsOf d (ops ++ [.setDependency d']) = d' :: depsOf d ops := by
  simp [depsOf]

theorem depsOf_ne_nil (d : Dep) (ops : List (Op P)) : depsOf d ops ≠ [] := by
  simp [depsOf]

/-- The tables are those of the dependencies given so far. -/
def TableIs (M : Machine) (deps : List Dep) (s : SM P W) : Prop :=
  ∀ e p st, p ∈ M.composites → st ∈ M.states → s.table e (M.comb p st) = M.entries deps e p st

/-- The handler table is bound to dependency `d`. -/
def HandlersAre (M : Machine) (d : Dep) (s : SM P W) : Prop :=
  (M.decl M.root).handler.isSome = true → ∀ e ∈ M.events, ∀ p ∈ M.composites,
    ∀ st ∈ M.states, s.handlers e (M.comb p st) = some (st, d)

/-- Processing an event keeps anything that only depends on the tables. -/
theorem Preserves.tables (I : Table → HTable → Prop) :
    Preserves M sem True (fun _ => True) (fun s : SM P W => I s.table s.handlers) :=
  Preserves.easy _ (fun _ _ _ h => h)
    (fun s s' _ _ _ _ h _ _ hm => by
      show I s'.table s'.handlers
      rw [hm.table, hm.handlers]; exact h)
    (fun _ _ _ _ _ _ h _ _ _ => h) (fun _ _ _ _ h _ => h)

theorem RunTo.tables (hM : M.Regular) {d : Dep} {ops : List (Op P)} {s : SM P W}
    (h : RunTo M sem d ops s) : TableIs M (depsOf d ops) s ∧ HandlersAre M d s := by
  refine RunTo.induct (I := fun ops s => TableIs M (depsOf d ops) s ∧ HandlersAre M d s)
    ?_ ?_ (fun _ _ _ h => h) h
  · intro w s h
    obtain ⟨_, ⟨H, hH, hHs⟩, hT, _⟩ := construct_ok h
    refine ⟨?_, ?_⟩
    · intro e p st hp hst
      rw [Machine.fill_spec hM hT e hp hst]
      simp [Machine.entries, depsOf]
    · intro hs e he p hp st hst
      rw [hHs]
      rcases hH with ⟨_, hH⟩ | ⟨hn, _⟩
      · exact fillHandlers_spec hM hH he hp hst
      · rw [hn] at hs; cases hs
  · intro ops s op fuel _ hs hop
    cases op with
    | process ev p =>
      rw [depsOf_process]
      exact (Preserves.tables (M := M) (sem := sem) (fun T H =>
          (∀ e p st, p ∈ M.composites → st ∈ M.states →
            T e (M.comb p st) = M.entries (depsOf d ops) e p st) ∧
          ((M.decl M.root).handler.isSome = true → ∀ e ∈ M.events, ∀ p ∈ M.composites,
            ∀ st ∈ M.states, H e (M.comb p st) = some (st, d)))).processEvent fuel ev p s
          (fun s p hs => callHandler_easy _ (fun _ _ _ h => h) ev s p hs) hs
    | set r p st =>
      rw [depsOf_set]
      show (Res.bind _ _).Sat _ _ _
      unfold setOp
      split
      · exact hs
      · exact hs
    | setDependency d' =>
      rw [depsOf_dep]
      show (Res.bind _ _).Sat _ _ _
      unfold Hsm.setDependency
      split
      · rename_i T hT
        refine ⟨?_, hs.2⟩
        intro e p st hp hst
        show T e (M.comb p st) = _
        rw [Machine.fill_spec hM hT e hp hst, hs.1 e p st hp hst]
        simp [Machine.entries]
      · trivial

theorem RunTo.reach {d : Dep} {ops : List (Op P)} {s : SM P W} (h : RunTo M sem d ops s) :
    Reach M sem s := ⟨d, ops, h⟩

/-- What is consulted at a location. -/
theorem RunTo.lookup (hM : M.Regular) {d : Dep} {ops : List (Op P)} {s : SM P W}
    (h : RunTo M sem d ops s) {r : Nat} {p : Name} {st : StTy} (ha : At M s r p st)
    (e : EventTy) : lookup M e r s = .ok (M.entries (depsOf d ops) e p st) s := by
  rw [lookup_ok]
  exact ⟨rfl, _, ha.2.2, hM.comb_lt.2 ⟨ha.1, ha.2.1⟩, ((h.tables hM).1 e p st ha.1 ha.2.1).symm⟩

end
end Hsm
