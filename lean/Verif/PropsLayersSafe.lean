import Verif.PropsLayersGen

/-!
# Layered programs do nothing undefined (C129)
-/

namespace Hsm

section
variable {ι P W : Type} [DecidableEq ι] {Ms : ι → Machine} {sem : SemS ι P W} {layer : ι → Nat} {d : ι → Dep}
  {ops : List (ι × Op P)} {h : Hub ι P W}

/-- C129: in a program whose callbacks only use machines of lower layers no loop goes on over a table cell that was
pushed to meanwhile, whatever else may be wrong with its machines. -/
theorem C129_iterators (hs : sem.Layered Ms layer) (fuel n : Nat) (i : ι) (op : Op P) (h : Hub ι P W) :
    stepS Ms sem fuel n i op h ≠ .ub .iterator :=
  stepS_clear hs fuel n i op h

/-- C129: a layered program of safe machines has no undefined behaviour, whatever its guards call. -/
theorem C129_safe (hs : sem.Layered Ms layer) (hM : ∀ i, (Ms i).Regular) (hS : ∀ i, SafeS Ms sem i)
    (hg : sem.Good False (fun i => OpOk (Ms i))) (hr : RunToS Ms sem d ops h) (fuel n : Nat) (i : ι) (op : Op P)
    (hop : OpOk (Ms i) op) : (stepS Ms sem fuel n i op h).Defined := by
  intro u hu
  have := (C117_only_iterators hM hS hg hr).1 fuel n i op u hop hu
  rw [this] at hu
  exact stepS_clear hs fuel n i op h hu

/-- C129: if moreover anonymous rows are acyclic in every machine, every call returns or throws. -/
theorem C129_returns (hs : sem.Layered Ms layer) (hM : ∀ i, (Ms i).Regular) (hS : ∀ i, SafeS Ms sem i)
    (hg : sem.Good False (fun i => OpOk (Ms i))) {ρ : ι → Name × StTy → Nat} (hρ : ∀ i, Acyclic (Ms i) (ρ i))
    {B : ι → Nat} (hB : ∀ i, ∀ p ∈ (Ms i).composites, ∀ st ∈ (Ms i).states, ρ i (p, st) ≤ B i) {fuel : Nat}
    (hf : ∀ i, (Ms i).slotCount * B i < fuel) (hr : RunToS Ms sem d ops h) {i : ι} {op : Op P}
    (hop : OpOk (Ms i) op) {n : Nat} (hn : layer i < n) :
    (∃ b g, stepS Ms sem fuel n i op h = .ok b g) ∨ ∃ x g, stepS Ms sem fuel n i op h = .throw x g := by
  have h1 := C129_safe hs hM hS hg hr fuel n i op hop
  have h2 := C127_acyclic hs hM hρ hB hf hr hop hn
  cases hq : stepS Ms sem fuel n i op h with
  | ok b g => exact Or.inl ⟨b, g, rfl⟩
  | throw x g => exact Or.inr ⟨x, g, rfl⟩
  | ub u => exact absurd hq (h1 u)
  | timeout => exact absurd hq h2

/-- C129, iterators, for the amalgamated header. -/
theorem C129_iteratorsG (hs : sem.LayeredG Ms layer) (fuel n : Nat) (i : ι) (op : Op P) (h : Hub ι P W) :
    stepGS Ms sem fuel n i op h ≠ .ub .iterator :=
  stepGS_clear hs fuel n i op h

/-- C129 for the amalgamated header. -/
theorem C129_safeG (hs : sem.LayeredG Ms layer) (hM : ∀ i, (Ms i).RegularG) (hS : ∀ i, SafeGS Ms sem i)
    (hg : sem.Good False (fun i => OpOkGR (Ms i))) (hr : RunToGS Ms sem d ops h) (fuel n : Nat) (i : ι) (op : Op P)
    (hop : OpOkGR (Ms i) op) : (stepGS Ms sem fuel n i op h).Defined := by
  intro u hu
  have := (C118_only_iterators hM hS hg hr).1 fuel n i op u hop hu
  rw [this] at hu
  exact stepGS_clear hs fuel n i op h hu

/-- C129, all calls end, for the amalgamated header. -/
theorem C129_returnsG (hs : sem.LayeredG Ms layer) (hM : ∀ i, (Ms i).RegularG) (hS : ∀ i, SafeGS Ms sem i)
    (hg : sem.Good False (fun i => OpOkGR (Ms i))) {ρ : ι → Name × StTy → Nat} (hρ : ∀ i, AcyclicG (Ms i) (ρ i))
    {B : ι → Nat} (hB : ∀ i, ∀ p ∈ (Ms i).composites, ∀ st ∈ (Ms i).states, ρ i (p, st) ≤ B i) {fuel : Nat}
    (hf : ∀ i, (Ms i).slotCount * B i < fuel) (hr : RunToGS Ms sem d ops h) {i : ι} {op : Op P}
    (hop : OpOkGR (Ms i) op) {n : Nat} (hn : layer i < n) :
    (∃ b g, stepGS Ms sem fuel n i op h = .ok b g) ∨ ∃ x g, stepGS Ms sem fuel n i op h = .throw x g := by
  have h1 := C129_safeG hs hM hS hg hr fuel n i op hop
  have h2 := C128_acyclic hs hM hρ hB hf hr hop hn
  cases hq : stepGS Ms sem fuel n i op h with
  | ok b g => exact Or.inl ⟨b, g, rfl⟩
  | throw x g => exact Or.inr ⟨x, g, rfl⟩
  | ub u => exact absurd hq (h1 u)
  | timeout => exact absurd hq h2

end

/-! ## Examples -/

namespace Ex

/-- Three machines of type `hop`. -/
def triple (_ : Fin 3) : Machine := hop

/-- Actions of the first machine hand the second a dependency, guards of the second send the third an event. -/
def chainOfCommand : SemS (Fin 3) Nat (List Nat) where
  guard i _ _ p w := if i = 1 then .call 2 (.process (ev 1) 5) w fun _ w => .ret false p w else .ret true p w
  action i _ _ p w := if i = 0 then .call 1 (.setDependency 9) w fun _ w => .call 1 (.process (ev 0) 5) w
    fun _ w => .ret () p w else .ret () p w
  handler _ _ _ _ _ p w := .ret () p w
  alive _ _ _ := true
  nonePayload _ := 0

/-- The first machine commands the others. -/
def grade (i : Fin 3) : Nat := 2 - i.val

theorem chainOfCommand_good {U : Prop} {Q : Fin 3 → Fin 3 → Op Nat → Prop} (h1 : Q 1 2 (.process (ev 1) 5))
    (h2 : Q 0 1 (.setDependency 9)) (h3 : Q 0 1 (.process (ev 0) 5)) :
    (∀ i g a p w, (chainOfCommand.guard i g a p w).Good U (Q i)) ∧
    (∀ i c a p w, (chainOfCommand.action i c a p w).Good U (Q i)) ∧
    ∀ i c e st d p w, (chainOfCommand.handler i c e st d p w).Good U (Q i) := by
  refine ⟨fun i g a p w => ?_, fun i c a p w => ?_, fun _ _ _ _ _ _ _ => trivial⟩
  · show (if i = 1 then _ else _ : SProg (Fin 3) Nat (List Nat) Bool).Good U (Q i)
    split
    · next hi => subst hi; exact ⟨h1, fun _ _ => trivial⟩
    · trivial
  · show (if i = 0 then _ else _ : SProg (Fin 3) Nat (List Nat) Unit).Good U (Q i)
    split
    · next hi => subst hi; exact ⟨h2, fun _ _ => ⟨h3, fun _ _ => trivial⟩⟩
    · trivial

theorem chainOfCommand_layered : chainOfCommand.Layered triple grade := by
  obtain ⟨h1, h2, h3⟩ := chainOfCommand_good (U := True) (Q := fun i j op => grade j < grade i ∧ OpOk (triple j) op)
    ⟨by decide, hop_ok 1 (by decide) 5⟩ ⟨by decide, trivial⟩ ⟨by decide, hop_ok 0 (by decide) 5⟩
  exact ⟨h1, h2, h3⟩

/-- C129 applies although guards of the second machine make calls and its `set_dependency` is called, so that
`C117_safe` says nothing; the program has histories, and every call returns or throws. -/
example : (¬ chainOfCommand.QuietGuards 1 ∧ ¬ chainOfCommand.KeepsDeps 1) ∧
    (∃ h, RunToS triple chainOfCommand (fun _ => 7) [] h) ∧
    ∀ d ops h, RunToS triple chainOfCommand d ops h → ∀ i op, OpOk (triple i) op →
      (∃ b g, stepS triple chainOfCommand 1 3 i op h = .ok b g) ∨
        ∃ x g, stepS triple chainOfCommand 1 3 i op h = .throw x g := by
  refine ⟨⟨fun h => ?_, fun h => ?_⟩, ?_, ?_⟩
  · exact (h 0 ⟨ev 0, .st 1, .st 1, false, 0⟩ 0 []).1
  · exact (h.action 0 0 ⟨ev 0, .st 1, .st 1, false, 0⟩ 0 []).1 rfl 9 rfl
  · obtain ⟨s, hs⟩ : ∃ s, construct hop 7 () = .ok (s : SM Nat Unit) := by
      have : (match construct hop 7 () with | .ok (_ : SM Nat Unit) => true | .error _ => false) = true := by
        decide +kernel
      revert this
      cases construct hop 7 () with
      | ok s => exact fun _ => ⟨s, rfl⟩
      | error e => intro h; cases h
    exact ⟨⟨[], fun _ => s, none⟩, .init fun _ => hs⟩
  · intro d ops h hr i op ho
    have hsafe := hop_safe (on := fun _ => true) (asks := never) (calls := never) never_all never_all
    obtain ⟨g1, g2, g3⟩ := chainOfCommand_good (U := False) (Q := fun _ j op => OpOk (triple j) op)
      (hop_ok 1 (by decide) 5) trivial (hop_ok 0 (by decide) 5)
    exact C129_returns chainOfCommand_layered (fun _ => hop_regular)
      (fun _ => ⟨hsafe.scopes, hsafe.regions, hsafe.history, hsafe.noneNotDeferred, fun _ => Or.inr fun _ => rfl⟩)
      ⟨g1, g2, g3⟩ (ρ := fun _ _ => 0) (B := fun _ => 0) (fun _ => acyclic_of_none (M := hop) (by decide +kernel))
      (fun _ _ _ _ _ => Nat.le_refl _) (fun i => by
        show (triple i).slotCount * 0 < 1
        omega) hr ho
      (by
        show 2 - i.val < 3
        omega)

theorem chainOfCommand_layeredG : chainOfCommand.LayeredG triple grade := by
  obtain ⟨h1, h2, h3⟩ := chainOfCommand_good (U := True) (Q := fun i j op => grade j < grade i ∧ OpOkGR (triple j) op)
    ⟨by decide, hop_okG 1 (by decide) 5⟩ ⟨by decide, trivial⟩ ⟨by decide, hop_okG 0 (by decide) 5⟩
  exact ⟨h1, h2, h3⟩

/-- The same with the amalgamated header. -/
example (d ops h) (hr : RunToGS triple chainOfCommand d ops h) (i op) (ho : OpOkGR (triple i) op) :
    (∃ b g, stepGS triple chainOfCommand 1 3 i op h = .ok b g) ∨
      ∃ x g, stepGS triple chainOfCommand 1 3 i op h = .throw x g := by
  have h := hop_safeGR (on := fun _ => true) (asks := never) (calls := never) never_all never_all
  obtain ⟨g1, g2, g3⟩ := chainOfCommand_good (U := False) (Q := fun _ j op => OpOkGR (triple j) op)
    (hop_okG 1 (by decide) 5) trivial (hop_okG 0 (by decide) 5)
  exact C129_returnsG chainOfCommand_layeredG (fun _ => hop_regularG)
    (fun _ => ⟨h.scopes, h.targets, h.rootInit, h.regions, h.history, h.noneNotDeferred, fun _ => Or.inr fun _ => rfl⟩)
    ⟨g1, g2, g3⟩ (ρ := fun _ _ => 0) (B := fun _ => 0) (fun _ => acyclicG_of_none (M := hop) (by decide +kernel))
    (fun _ _ _ _ _ => Nat.le_refl _) (fun i => by
      show (triple i).slotCount * 0 < 1
      omega) hr ho
    (by
      show 2 - i.val < 3
      omega)

end Ex
end Hsm
