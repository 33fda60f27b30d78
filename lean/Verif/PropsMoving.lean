import Verif.Moving

/-!
# Moving machine objects: proofs (C81)
-/

namespace Hsm

section
variable {P W C : Type} {M : Machine} {sem : Sem P W} {B : Brand C P W}

/-! ## Programs with moves -/

/-- The variables hold what they stand for, and no machine is held twice. -/
structure Fleet.Sim (F : Fleet P W) (H : Heap P W) : Prop where
  world : F.world = H.world
  absent : ∀ h, F.var h = none → H.obj h = none
  gone : ∀ h, F.var h = some .gone → ∃ o, H.obj h = some o
  machine : ∀ h n, F.var h = some (.machine n) →
    ∃ s, F.machines[n]? = some s ∧ H.obj h = some (s, true)
  once : ∀ h h' n, F.var h = some (.machine n) → F.var h' = some (.machine n) → h = h'

theorem Fleet.Sim.occupied {F : Fleet P W} {H : Heap P W} (hs : F.Sim H) {h : Nat} {x : Holds}
    (hx : F.var h = some x) : ∃ o, H.obj h = some o := by
  cases x with
  | machine n => obtain ⟨s, _, h2⟩ := hs.machine h n hx; exact ⟨_, h2⟩
  | gone => exact hs.gone h hx

theorem Heap.put_self (H : Heap P W) (h : Nat) (o : Option (SM P W × Bool)) :
    (H.put h o).obj h = o := by simp [Heap.put]

theorem Heap.put_ne (H : Heap P W) {h k : Nat} (o : Option (SM P W × Bool)) (hk : k ≠ h) :
    (H.put h o).obj k = H.obj k := by simp [Heap.put, hk]

/-- Handing the machine of `g` to `h`. -/
theorem Fleet.Sim.pass {F : Fleet P W} {H : Heap P W} (hs : F.Sim H) {h g n : Nat} (hne : h ≠ g)
    (hg : F.var g = some (.machine n)) {s : SM P W} (ho : H.obj g = some (s, true))
    (o : SM P W × Bool) :
    ((F.stand h (some (.machine n))).stand g (some .gone)).Sim
      ((H.put h (some (s, true))).put g (some o)) := by
  have var : ∀ k, ((F.stand h (some (.machine n))).stand g (some .gone)).var k =
      if k = g then some .gone else if k = h then some (.machine n) else F.var k :=
    fun _ => rfl
  have obj : ∀ k, ((H.put h (some (s, true))).put g (some o)).obj k =
      if k = g then some o else if k = h then some (s, true) else H.obj k :=
    fun _ => rfl
  obtain ⟨s', hn, hs'⟩ := hs.machine g n hg
  rw [ho] at hs'
  obtain rfl : s = s' := by injection hs' with h; exact congrArg Prod.fst h
  refine ⟨hs.world, ?_, ?_, ?_, ?_⟩
  · intro k hk
    rw [var] at hk; rw [obj]
    split at hk
    · cases hk
    · split at hk
      · cases hk
      · rename_i h1 h2; rw [if_neg h1, if_neg h2]; exact hs.absent k hk
  · intro k hk
    rw [var] at hk; rw [obj]
    split at hk
    · rename_i h1; rw [if_pos h1]; exact ⟨_, rfl⟩
    · split at hk
      · cases hk
      · rename_i h1 h2; rw [if_neg h1, if_neg h2]; exact hs.gone k hk
  · intro k m hk
    rw [var] at hk; rw [obj]
    split at hk
    · cases hk
    · split at hk
      · rename_i h1 h2; cases hk; rw [if_neg h1, if_pos h2]; exact ⟨s, hn, rfl⟩
      · rename_i h1 h2; rw [if_neg h1, if_neg h2]; exact hs.machine k m hk
  · intro k k' m hk hk'
    rw [var] at hk hk'
    split at hk
    · cases hk
    · split at hk'
      · cases hk'
      · split at hk
        · rename_i h1 h2 h3; cases hk
          split at hk'
          · rename_i h4; rw [h3, h4]
          · exact absurd (hs.once _ _ _ hk' hg) h2
        · split at hk'
          · rename_i h1 h2 _ _; cases hk'
            exact absurd (hs.once _ _ _ hk hg) h1
          · exact hs.once _ _ _ hk hk'

theorem Fleet.Sim.called {F : Fleet P W} {H : Heap P W} (hs : F.Sim H) {h n : Nat}
    (hv : F.var h = some (.machine n)) (s' : SM P W) (w : W) :
    Fleet.Sim { F with machines := F.machines.set n s', world := w }
      { H.put h (some (s', true)) with world := w } := by
  obtain ⟨s, hn, ho⟩ := hs.machine h n hv
  have hlt : n < F.machines.length := (List.getElem?_eq_some_iff.1 hn).1
  refine ⟨rfl, ?_, ?_, ?_, hs.once⟩
  · intro k hk
    have hkh : k ≠ h := by rintro rfl; rw [show F.var k = none from hk] at hv; cases hv
    exact (H.put_ne _ hkh).trans (hs.absent k hk)
  · intro k hk
    by_cases hkh : k = h
    · subst hkh; exact ⟨_, H.put_self k _⟩
    · obtain ⟨o, h'⟩ := hs.gone k hk
      exact ⟨o, (H.put_ne _ hkh).trans h'⟩
  · intro k m hk
    by_cases hkh : k = h
    · subst hkh
      have : m = n := by
        have := hv.symm.trans hk; injection this with this; injection this with this; exact this.symm
      subst this
      exact ⟨s', List.getElem?_set_self hlt, H.put_self k _⟩
    · obtain ⟨t, h1, h2⟩ := hs.machine k m hk
      refine ⟨t, ?_, (H.put_ne _ hkh).trans h2⟩
      rw [List.getElem?_set_ne ?_]
      · exact h1
      · rintro rfl; exact hkh (hs.once _ _ _ hk hv)

/-- One step. -/
theorem Fleet.Sim.exec {F : Fleet P W} {H : Heap P W} (hs : F.Sim H) (op : HOp C) :
    match F.exec B op with
    | .ok (r, F') => ∃ H', H.exec B op = .ok (r, H') ∧ F'.Sim H'
    | .error .lifetime => True
    | .error e => H.exec B op = .error e := by
  cases op with
  | create h d =>
    unfold Fleet.exec Heap.exec
    dsimp only
    cases hv : F.var h with
    | some x => trivial
    | none =>
      rw [hs.absent h hv, hs.world]
      dsimp only
      cases hc : B.make d H.world with
      | error e => rfl
      | ok s =>
        refine ⟨_, rfl, hs.world, ?_, ?_, ?_, ?_⟩
        · intro k hk
          by_cases hkh : k = h
          · subst hkh; simp [Fleet.stand] at hk
          · simp [Fleet.stand, hkh] at hk
            rw [H.put_ne _ hkh]; exact hs.absent k hk
        · intro k hk
          by_cases hkh : k = h
          · subst hkh; simp [Fleet.stand] at hk
          · simp [Fleet.stand, hkh] at hk
            rw [H.put_ne _ hkh]; exact hs.gone k hk
        · intro k m hk
          by_cases hkh : k = h
          · subst hkh; simp [Fleet.stand] at hk; subst hk
            exact ⟨s, by simp, H.put_self k _⟩
          · simp [Fleet.stand, hkh] at hk
            obtain ⟨t, h1, h2⟩ := hs.machine k m hk
            refine ⟨t, ?_, (H.put_ne _ hkh).trans h2⟩
            show (F.machines ++ [s])[m]? = _
            rw [List.getElem?_append_left (List.getElem?_eq_some_iff.1 h1).1]; exact h1
        · intro k k' m hk hk'
          have old : ∀ k, k ≠ h → (if k = h then some (Holds.machine F.machines.length)
              else F.var k) = some (.machine m) → m < F.machines.length := by
            intro k hkh h1
            rw [if_neg hkh] at h1
            obtain ⟨t, h1, _⟩ := hs.machine k m h1
            exact (List.getElem?_eq_some_iff.1 h1).1
          by_cases h1 : k = h <;> by_cases h2 : k' = h
          · rw [h1, h2]
          · have := old k' h2 hk'
            subst h1; simp [Fleet.stand] at hk; omega
          · have := old k h1 hk
            subst h2; simp [Fleet.stand] at hk'; omega
          · simp [Fleet.stand, h1, h2] at hk hk'
            exact hs.once _ _ _ hk hk'
  | move h g =>
    unfold Fleet.exec Heap.exec
    dsimp only
    cases hv : F.var h with
    | some x => trivial
    | none =>
      cases hg : F.var g with
      | none => trivial
      | some x =>
        cases x with
        | gone => trivial
        | machine n =>
          obtain ⟨s, hn, ho⟩ := hs.machine g n hg
          rw [hs.absent h hv, ho]
          refine ⟨_, rfl, ?_⟩
          exact hs.pass (by rintro rfl; rw [hv] at hg; cases hg) hg ho _
  | assign h g =>
    unfold Fleet.exec Heap.exec
    dsimp only
    by_cases hhg : h = g
    · rw [if_pos hhg]; trivial
    · rw [if_neg hhg, if_neg hhg]
      cases hv : F.var h with
      | none => trivial
      | some y =>
        cases hg : F.var g with
        | none => trivial
        | some x =>
          cases x with
          | gone => trivial
          | machine n =>
            obtain ⟨s, hn, ho⟩ := hs.machine g n hg
            obtain ⟨t, ht⟩ := hs.occupied hv
            rw [ht, ho]
            exact ⟨_, rfl, hs.pass hhg hg ho _⟩
  | destroy h =>
    unfold Fleet.exec Heap.exec
    dsimp only
    cases hv : F.var h with
    | none => trivial
    | some x =>
      obtain ⟨o, ho⟩ := hs.occupied hv
      rw [ho]
      refine ⟨_, rfl, hs.world, ?_, ?_, ?_, ?_⟩
      · intro k hk
        by_cases hkh : k = h
        · subst hkh; exact H.put_self k _
        · simp [Fleet.stand, hkh] at hk
          rw [H.put_ne _ hkh]; exact hs.absent k hk
      · intro k hk
        by_cases hkh : k = h
        · subst hkh; simp [Fleet.stand] at hk
        · simp [Fleet.stand, hkh] at hk
          rw [H.put_ne _ hkh]; exact hs.gone k hk
      · intro k m hk
        by_cases hkh : k = h
        · subst hkh; simp [Fleet.stand] at hk
        · simp [Fleet.stand, hkh] at hk
          rw [H.put_ne _ hkh]; exact hs.machine k m hk
      · intro k k' m hk hk'
        by_cases h1 : k = h
        · subst h1; simp [Fleet.stand] at hk
        · by_cases h2 : k' = h
          · subst h2; simp [Fleet.stand] at hk'
          · simp [Fleet.stand, h1, h2] at hk hk'
            exact hs.once _ _ _ hk hk'
  | call h op =>
    unfold Fleet.exec Heap.exec
    dsimp only
    cases hv : F.var h with
    | none => trivial
    | some x =>
      cases x with
      | gone => trivial
      | machine n =>
        obtain ⟨s, hn, ho⟩ := hs.machine h n hv
        dsimp only
        rw [hn, ho]
        dsimp only
        unfold Heap.call
        rw [hs.world]
        dsimp only
        cases B.call op ({ s with world := H.world }, true) with
        | ok b s' => exact ⟨_, rfl, hs.called hv s' _⟩
        | throw x s' => exact ⟨_, rfl, hs.called hv s' _⟩
        | ub u => rfl
        | timeout => rfl

theorem Fleet.Sim.run : ∀ (ops : List (HOp C)) {F : Fleet P W} {H : Heap P W},
    F.Sim H →
    match Fleet.run B ops F with
    | .ok (rs, F') => ∃ H', Heap.run B ops H = .ok (rs, H') ∧ F'.Sim H'
    | .error .lifetime => True
    | .error e => Heap.run B ops H = .error e := by
  intro ops
  induction ops with
  | nil => intro F H hs; exact ⟨H, rfl, hs⟩
  | cons op ops ih =>
    intro F H hs
    have h1 := hs.exec (B := B) op
    unfold Fleet.run Heap.run
    cases he : F.exec B op with
    | error e =>
      rw [he] at h1
      cases e with
      | lifetime => trivial
      | _ => dsimp only at h1 ⊢; rw [h1]
    | ok x =>
      obtain ⟨r, F'⟩ := x
      rw [he] at h1
      obtain ⟨H', h1, hs'⟩ := h1
      rw [h1]
      dsimp only
      have h2 := ih hs'
      cases hr : Fleet.run B ops F' with
      | error e =>
        rw [hr] at h2
        cases e with
        | lifetime => trivial
        | _ => dsimp only at h2 ⊢; rw [h2]
      | ok y =>
        obtain ⟨rs, F''⟩ := y
        rw [hr] at h2
        obtain ⟨H'', h2, hs''⟩ := h2
        rw [h2]
        exact ⟨H'', rfl, hs''⟩

/-- Moving is not observable.  A program that does not use what it moved away gets the same
replies, and stops for the same reason, as if machines never moved; and in the end each variable
holds the machine it stands for. -/
theorem Brand.same (ops : List (HOp C)) (w : W) :
    match Fleet.run B ops (Fleet.start w) with
    | .ok (rs, F) => ∃ H, Heap.run B ops (Heap.start w) = .ok (rs, H) ∧
        F.world = H.world ∧ ∀ h n, F.var h = some (.machine n) →
          ∃ s, F.machines[n]? = some s ∧ H.obj h = some (s, true)
    | .error .lifetime => True
    | .error e => Heap.run B ops (Heap.start w) = .error e := by
  have h := Fleet.Sim.run (B := B) ops
    (F := Fleet.start w) (H := Heap.start w)
    ⟨rfl, fun _ _ => rfl, by rintro _ ⟨⟩, by rintro _ _ ⟨⟩, by rintro _ _ _ ⟨⟩⟩
  revert h
  cases Fleet.run B ops (Fleet.start w) with
  | error e => cases e <;> exact id
  | ok x =>
    rintro ⟨H, h, hs⟩
    exact ⟨H, h, hs.world, hs.machine⟩

/-- C81: moving is not observable.  A program that does not use what it moved away gets the same
replies, and stops for the same reason, as if machines never moved; and in the end each variable
holds the machine it stands for. -/
theorem C81_same (fuel : Nat) (ops : List (HOp (Op P))) (w : W) :
    match Fleet.run (.modular M sem fuel) ops (Fleet.start w) with
    | .ok (rs, F) => ∃ H, Heap.run (.modular M sem fuel) ops (Heap.start w) = .ok (rs, H) ∧
        F.world = H.world ∧ ∀ h n, F.var h = some (.machine n) →
          ∃ s, F.machines[n]? = some s ∧ H.obj h = some (s, true)
    | .error .lifetime => True
    | .error e => Heap.run (.modular M sem fuel) ops (Heap.start w) = .error e :=
  Brand.same ops w

theorem Heap.run_snoc (op : HOp C) : ∀ (ops : List (HOp C)) (H : Heap P W)
    {rs : List Reply} {H' : Heap P W}, Heap.run B (ops ++ [op]) H = .ok (rs, H') →
    ∃ rs1 H1 r, Heap.run B ops H = .ok (rs1, H1) ∧
      H1.exec B op = .ok (r, H') := by
  intro ops
  induction ops with
  | nil =>
    intro H rs H' h
    rw [List.nil_append] at h
    unfold Heap.run at h
    cases he : H.exec B op with
    | error e => rw [he] at h; cases h
    | ok x =>
      obtain ⟨r, H1⟩ := x
      rw [he] at h
      cases h
      exact ⟨[], H, r, rfl, he⟩
  | cons o ops ih =>
    intro H rs H' h
    rw [List.cons_append] at h
    unfold Heap.run at h
    cases he : H.exec B o with
    | error e => rw [he] at h; cases h
    | ok x =>
      obtain ⟨r, H1⟩ := x
      rw [he] at h
      dsimp only at h
      cases hr : Heap.run B (ops ++ [op]) H1 with
      | error e => rw [hr] at h; cases h
      | ok y =>
        obtain ⟨rs', H2⟩ := y
        rw [hr] at h
        cases h
        obtain ⟨rs1, H3, r', h1, h2⟩ := ih H1 hr
        refine ⟨r.toList ++ rs1, H3, r', ?_, h2⟩
        unfold Heap.run
        rw [he]
        dsimp only
        rw [h1]

/-- A relation of dependencies, calls and objects that the constructor and the calls keep. -/
structure Brand.Keeps (B : Brand C P W) (Ok : C → Prop) (R : Dep → List C → SM P W → Prop) : Prop where
  init : ∀ {d w s}, B.make d w = .ok s → R d [] s
  ok : ∀ {d ops s op b s'}, R d ops s → Ok op → B.call op (s, true) = .ok b s' → R d (ops ++ [op]) s'
  throw : ∀ {d ops s op x s'}, R d ops s → Ok op → B.call op (s, true) = .throw x s' → R d (ops ++ [op]) s'
  world : ∀ {d ops s}, R d ops s → ∀ w, R d ops { s with world := w }

theorem life_runTo {Ok : C → Prop} {R : Dep → List C → SM P W → Prop} (hB : B.Keeps Ok R) (w : W) :
    ∀ (back : List (HOp C)), (∀ h op, HOp.call h op ∈ back → Ok op) → ∀ {rs : List Reply} {H : Heap P W},
    Heap.run B back.reverse (Heap.start w) = .ok (rs, H) → ∀ {h : Nat} {d : Dep}
    {l : List C}, life back h = some (d, l) →
    ∃ s, H.obj h = some (s, true) ∧ R d l s := by
  intro back
  induction back with
  | nil => intro _ _ _ _ _ _ _ hl; cases hl
  | cons op back ih =>
    intro hops rs H hr h d l hl
    rw [List.reverse_cons] at hr
    obtain ⟨rs1, H1, r, h1, h2⟩ := Heap.run_snoc op back.reverse _ hr
    have ih' := @ih (fun h op hm => hops h op (List.mem_cons_of_mem _ hm)) rs1 H1 h1
    clear ih hr h1
    cases op with
    | create g d' =>
      unfold life at hl
      unfold Heap.exec at h2
      dsimp only at h2 hl
      cases ho : H1.obj g with
      | some o => rw [ho] at h2; cases h2
      | none =>
        rw [ho] at h2
        dsimp only at h2
        cases hc : B.make d' H1.world with
        | error e => rw [hc] at h2; cases h2
        | ok s =>
          rw [hc] at h2
          cases h2
          split at hl
          · rename_i hg
            cases hl
            exact ⟨s, hg ▸ H1.put_self g _, hB.init hc⟩
          · rename_i hg
            obtain ⟨s, h1, h2⟩ := ih' hl
            exact ⟨s, (H1.put_ne _ hg).trans h1, h2⟩
    | move k g =>
      unfold life at hl
      unfold Heap.exec at h2
      dsimp only at h2 hl
      split at hl
      · cases hl
      · rename_i hg
        split at h2
        · rename_i o hk ho
          cases h2
          rw [Heap.put_ne _ _ hg]
          split at hl
          · rename_i hk
            obtain ⟨s, h1, h2⟩ := ih' hl
            rw [ho] at h1
            cases h1
            exact ⟨s, hk ▸ H1.put_self k _, h2⟩
          · rename_i hk
            rw [Heap.put_ne _ _ hk]
            exact ih' hl
        · cases h2
    | assign k g =>
      unfold life at hl
      unfold Heap.exec at h2
      dsimp only at h2 hl
      split at h2
      · cases h2
      · split at hl
        · cases hl
        · rename_i hg
          split at h2
          · rename_i t o hk ho
            cases h2
            rw [Heap.put_ne _ _ hg]
            split at hl
            · rename_i hk
              obtain ⟨s, h1, h2⟩ := ih' hl
              rw [ho] at h1
              cases h1
              exact ⟨s, hk ▸ H1.put_self k _, h2⟩
            · rename_i hk
              rw [Heap.put_ne _ _ hk]
              exact ih' hl
          · cases h2
    | destroy k =>
      unfold life at hl
      unfold Heap.exec at h2
      dsimp only at h2 hl
      split at hl
      · cases hl
      · rename_i hk
        split at h2
        · cases h2
        · cases h2
          rw [Heap.put_ne _ _ hk]
          exact ih' hl
    | call k op =>
      have hop : Ok op := hops k op List.mem_cons_self
      unfold life at hl
      unfold Heap.exec at h2
      dsimp only at h2 hl
      cases ho : H1.obj k with
      | none => rw [ho] at h2; cases h2
      | some o =>
        rw [ho] at h2
        dsimp only at h2
        have h3 : H1.call B k o op = .ok (r, H) := h2
        clear h2
        unfold Heap.call at h3
        split at hl
        · rename_i hk
          subst hk
          rw [Option.map_eq_some_iff] at hl
          obtain ⟨⟨d', l'⟩, hl, heq⟩ := hl
          cases heq
          obtain ⟨s, h1, h2⟩ := ih' hl
          rw [ho] at h1
          cases h1
          dsimp only at h3
          split at h3
          · rename_i b s' hst
            cases h3
            exact ⟨s', H1.put_self h _, hB.ok (hB.world h2 H1.world) hop hst⟩
          · rename_i x s' hst
            cases h3
            exact ⟨s', H1.put_self h _, hB.throw (hB.world h2 H1.world) hop hst⟩
          · cases h3
          · cases h3
        · rename_i hk
          obtain ⟨s, h1, h2⟩ := ih' hl
          split at h3
          · cases h3
            exact ⟨s, (H1.put_ne _ hk).trans h1, h2⟩
          · cases h3
            exact ⟨s, (H1.put_ne _ hk).trans h1, h2⟩
          · cases h3
          · cases h3

theorem Brand.modular_keeps (fuel : Nat) :
    (Brand.modular M sem fuel).Keeps (OpOk M) (RunTo M sem) where
  init := .init
  ok := .ok
  throw := .throw
  world := .world

/-- C81: whatever was moved, a machine's state is one it can reach by the calls it got: everything
proved about histories holds of machines that are moved. -/
theorem C81_life (fuel : Nat) (w : W) {ops : List (HOp (Op P))}
    (hops : ∀ h op, HOp.call h op ∈ ops → OpOk M op) {rs : List Reply} {H : Heap P W}
    (hr : Heap.run (.modular M sem fuel) ops (Heap.start w) = .ok (rs, H)) {h : Nat} {d : Dep}
    {l : List (Op P)} (hl : life ops.reverse h = some (d, l)) :
    ∃ s, H.obj h = some (s, true) ∧ RunTo M sem d l s :=
  life_runTo (Brand.modular_keeps fuel) w ops.reverse (fun h op hm => hops h op (List.mem_reverse.1 hm))
    (by rw [List.reverse_reverse]; exact hr) hl

theorem life_of_obj (w : W) : ∀ (back : List (HOp C)) {rs : List Reply} {H : Heap P W},
    Heap.run B back.reverse (Heap.start w) = .ok (rs, H) → ∀ {h : Nat} {s : SM P W},
    H.obj h = some (s, true) → life back h ≠ none := by
  intro back
  induction back with
  | nil => intro _ _ hr _ _ ho; cases hr; cases ho
  | cons op back ih =>
    intro rs H hr h s hh
    rw [List.reverse_cons] at hr
    obtain ⟨rs1, H1, r, h1, h2⟩ := Heap.run_snoc op back.reverse _ hr
    have ih' := @ih rs1 H1 h1
    clear ih hr h1
    unfold Heap.exec at h2
    unfold life
    cases op with
    | create g d' =>
      dsimp only at h2 ⊢
      split
      · exact Option.some_ne_none _
      · rename_i hg
        split at h2
        · cases h2
        · split at h2
          · cases h2
            rw [Heap.put_ne _ _ hg] at hh
            exact ih' hh
          · cases h2
    | move k g =>
      dsimp only at h2 ⊢
      split at h2
      · rename_i o hk ho
        cases h2
        split
        · rename_i hg
          rw [hg, Heap.put_self] at hh
          cases hh
        · rename_i hg
          rw [Heap.put_ne _ _ hg] at hh
          split
          · rename_i hk
            rw [hk, Heap.put_self] at hh
            obtain ⟨o1, o2⟩ := o
            cases hh
            exact ih' ho
          · rename_i hk
            rw [Heap.put_ne _ _ hk] at hh
            exact ih' hh
      · cases h2
    | assign k g =>
      dsimp only at h2 ⊢
      split at h2
      · cases h2
      · split at h2
        · rename_i t o hk ho
          cases h2
          split
          · rename_i hg
            rw [hg, Heap.put_self] at hh
            cases hh
          · rename_i hg
            rw [Heap.put_ne _ _ hg] at hh
            split
            · rename_i hk
              rw [hk, Heap.put_self] at hh
              obtain ⟨o1, o2⟩ := o
              cases hh
              exact ih' ho
            · rename_i hk
              rw [Heap.put_ne _ _ hk] at hh
              exact ih' hh
        · cases h2
    | destroy k =>
      dsimp only at h2 ⊢
      split at h2
      · cases h2
      · cases h2
        split
        · rename_i hk
          rw [hk, Heap.put_self] at hh
          cases hh
        · rename_i hk
          rw [Heap.put_ne _ _ hk] at hh
          exact ih' hh
    | call k op =>
      dsimp only at h2 ⊢
      cases ho : H1.obj k with
      | none => rw [ho] at h2; cases h2
      | some o =>
        rw [ho] at h2
        dsimp only at h2
        have h3 : H1.call B k o op = .ok (r, H) := h2
        clear h2
        have h4 : ∃ s', H.obj = (H1.put k (some (s', o.2))).obj := by
          unfold Heap.call at h3
          split at h3
          · cases h3; exact ⟨_, rfl⟩
          · cases h3; exact ⟨_, rfl⟩
          · cases h3
          · cases h3
        obtain ⟨s', h4⟩ := h4
        rw [h4] at hh
        split
        · rename_i hk
          rw [hk, Heap.put_self] at hh
          obtain ⟨o1, o2⟩ := o
          cases hh
          rw [Ne, Option.map_eq_none_iff, hk]
          exact ih' ho
        · rename_i hk
          rw [Heap.put_ne _ _ hk] at hh
          exact ih' hh

/-- C81: an object has lost its state objects if and only if it was moved away and not assigned to since. -/
theorem C81_gone (fuel : Nat) (w : W) {ops : List (HOp (Op P))}
    (hops : ∀ h op, HOp.call h op ∈ ops → OpOk M op) {rs : List Reply} {H : Heap P W}
    (hr : Heap.run (.modular M sem fuel) ops (Heap.start w) = .ok (rs, H)) {h : Nat} {s : SM P W} {b : Bool}
    (ho : H.obj h = some (s, b)) : b = false ↔ life ops.reverse h = none := by
  constructor
  · rintro rfl
    cases hl : life ops.reverse h with
    | none => rfl
    | some x =>
      obtain ⟨s', h1, -⟩ := C81_life fuel w hops hr (d := x.1) (l := x.2) hl
      rw [ho] at h1
      cases h1
  · intro h1
    cases b with
    | false => rfl
    | true => exact absurd h1 (life_of_obj w ops.reverse (by rw [List.reverse_reverse]; exact hr) ho)

/-! ## What is left behind -/

/-- What came out, without the object. -/
def Res.answer {σ α : Type} : Res σ α → Res Unit α
  | .ok a _ => .ok a ()
  | .throw x _ => .throw x ()
  | .ub u => .ub u
  | .timeout => .timeout

/-- Two objects with the same numbers. -/
def SameNumbers (s t : SM P W) : Prop := s.cur = t.cur ∧ s.regions = t.regions

/-- The same answer, and the objects still have the same numbers. -/
def Res.AnswersAlike {α : Type} (r r' : Res (SM P W) α) : Prop :=
  match r, r' with
  | .ok a s, .ok a' s' => a = a' ∧ SameNumbers s s'
  | .throw x _, .throw x' _ => x = x'
  | .ub u, .ub u' => u = u'
  | .timeout, .timeout => True
  | _, _ => False

theorem Res.AnswersAlike.answer {α : Type} {r r' : Res (SM P W) α} (h : r.AnswersAlike r') :
    r.answer = r'.answer := by
  cases r <;> cases r' <;> simp_all [Res.AnswersAlike, Res.answer]

theorem Res.AnswersAlike.bind {α β : Type} {r r' : Res (SM P W) α}
    {f f' : α → SM P W → Res (SM P W) β} (h : r.AnswersAlike r')
    (hf : ∀ a s s', SameNumbers s s' → (f a s).AnswersAlike (f' a s')) :
    (r.bind f).AnswersAlike (r'.bind f') := by
  cases r <;> cases r' <;> simp_all [Res.AnswersAlike, Res.bind]

theorem readCur_alike (r : Nat) {s s' : SM P W} (h : SameNumbers s s') :
    (readCur r s).AnswersAlike (readCur r s') := by
  unfold readCur
  rw [h.1]
  split
  · rfl
  · rfl
  · exact ⟨rfl, h⟩

theorem currentParent_alike {s s' : SM P W} (h : SameNumbers s s') :
    (currentParent M s).AnswersAlike (currentParent M s') :=
  (readCur_alike 0 h).bind fun _ _ _ h => ⟨rfl, h⟩

theorem currentState_alike (r : Nat) {s s' : SM P W} (h : SameNumbers s s') :
    (currentState M r s).AnswersAlike (currentState M r s') := by
  refine Res.AnswersAlike.bind ?_ fun _ _ _ h => ⟨rfl, h⟩
  unfold atCur
  rw [h.1]
  split
  · rfl
  · rfl
  · exact ⟨rfl, h⟩

theorem isState_alike (st : StTy) {s s' : SM P W} (h : SameNumbers s s') :
    (isState M st s).AnswersAlike (isState M st s') :=
  (currentState_alike 0 h).bind fun _ _ _ h => ⟨rfl, h⟩

theorem parentIs_alike (p : Name) {s s' : SM P W} (h : SameNumbers s s') :
    (parentIs M p s).AnswersAlike (parentIs M p s') :=
  (currentParent_alike h).bind fun _ _ _ h => ⟨rfl, h⟩

theorem isRegion_alike (r : Nat) (p : Name) (st : StTy) {s s' : SM P W} (h : SameNumbers s s') :
    (isRegion M r p st s).AnswersAlike (isRegion M r p st s') := by
  refine Res.AnswersAlike.bind (Res.AnswersAlike.bind (currentParent_alike h)
    fun _ _ _ h => ⟨rfl, h⟩) ?_
  intro b s s' h
  cases b
  · exact ⟨rfl, h⟩
  · exact (currentState_alike _ h).bind fun _ _ _ h => ⟨rfl, h⟩

theorem statusLoop_alike : ∀ (rs : List Nat) {s s' : SM P W}, SameNumbers s s' →
    (statusLoop M rs s).AnswersAlike (statusLoop M rs s') := by
  intro rs
  induction rs with
  | nil => intro s s' h; exact ⟨rfl, h⟩
  | cons r rs ih =>
    intro s s' h
    exact (readCur_alike r h).bind fun _ _ _ h => (currentParent_alike h).bind fun _ _ _ h =>
      (currentState_alike r h).bind fun _ _ _ h => (ih h).bind fun _ _ _ h => ⟨rfl, h⟩

theorem hollow_numbers (H : HTable) (s : SM P W) : SameNumbers (s.hollow H) s := ⟨rfl, rfl⟩

/-- C81: an object that was moved away still says where it was. -/
theorem C81_asked (H : HTable) (s : SM P W) :
    (∀ r p st, (isRegion M r p st (s.hollow H)).answer = (isRegion M r p st s).answer) ∧
    (∀ p st, (isParent M p st (s.hollow H)).answer = (isParent M p st s).answer) ∧
    (∀ st, (isState M st (s.hollow H)).answer = (isState M st s).answer) ∧
    (∀ p, (parentIs M p (s.hollow H)).answer = (parentIs M p s).answer) ∧
    (status M (s.hollow H)).answer = (status M s).answer := by
  have h := hollow_numbers H s
  refine ⟨fun r p st => (isRegion_alike r p st h).answer, fun p st => (isRegion_alike 0 p st h).answer,
    fun st => (isState_alike st h).answer, fun p => (parentIs_alike p h).answer, ?_⟩
  unfold status
  rw [show currentRegions M (s.hollow H) = currentRegions M s from rfl]
  exact (statusLoop_alike _ h).answer

theorem hollow_regionLoop (hM : M.Regular) {H : HTable} {s : SM P W} (ev : EventTy) (a b : Bool)
    (p : P) : ∀ (rs : List Nat), (∀ r ∈ rs, ∃ q st, At M s r q st) →
    regionLoop M sem ev rs a b p (s.hollow H) = .ok (.done a b, p) (s.hollow H) := by
  intro rs
  induction rs with
  | nil => intro _; rfl
  | cons r rs ih =>
    intro hrs
    obtain ⟨q, st, hq, hst, hc⟩ := hrs r List.mem_cons_self
    have h1 : regionStep M sem r ev p (s.hollow H) = .ok (.none, p) (s.hollow H) := by
      unfold regionStep lookup readCur
      rw [show (s.hollow H).cur = s.cur from rfl, hc]
      show Res.bind (if _ then _ else _) _ = _
      rw [if_pos (hM.comb_lt.2 ⟨hq, hst⟩)]
      rfl
    unfold regionLoop
    rw [h1]
    exact ih fun r hr => hrs r (List.mem_cons_of_mem _ hr)

theorem hollow_process (hM : M.Regular) {H : HTable} {s : SM P W}
    (hs : ∀ r < activeRegions M s, ∃ q st, At M s r q st) (fuel : Nat) (ev : EventTy) (p : P) :
    processEvent M sem fuel ev p (s.hollow H) =
      (callHandler M sem ev p (s.hollow H)).bind fun _ s => .ok false s := by
  unfold processEvent processInternal
  rw [show currentRegions M (s.hollow H) = activeRegions M s by
    rw [currentRegions_eq]; rfl]
  rw [hollow_regionLoop hM ev true true p _ fun r hr => hs r (List.mem_range.1 hr)]
  rfl

/-- C81: an object that was moved away takes no event: nothing happens and the result is `false`.
If the machine has a handler for unexpected events, then after `auto t = std::move(s)` a null
pointer is called. -/
theorem C81_left (hM : M.Regular) {s : SM P W}
    (hs : ∀ r < activeRegions M s, ∃ q st, At M s r q st) (h0 : ∃ q st, At M s 0 q st)
    (fuel : Nat) (ev : EventTy) (p : P) :
    stepOn M sem fuel (.process ev p) (s.moveCtor.2, false) =
      if (M.decl M.root).handler.isSome then .ub .nullHandler else .ok false s.moveCtor.2 := by
  show processEvent M sem.blind fuel ev p (s.hollow fun _ _ => none) = _
  rw [hollow_process hM hs]
  obtain ⟨q, st, hq, hst, hc⟩ := h0
  unfold callHandler
  cases hh : (M.decl M.root).handler with
  | none => rfl
  | some h =>
    dsimp only
    unfold readCur
    rw [show (s.hollow fun _ _ => none).cur = s.cur from rfl, hc]
    show Res.bind (if _ then _ else _) _ = _
    rw [if_pos (hM.comb_lt.2 ⟨hq, hst⟩)]
    rfl

/-- C81: after `t = std::move(s)`, the handler for unexpected events of `s` is called with the
dependency of what was in `t` before. -/
theorem C81_swapped (hM : M.Regular) {s t : SM P W} {d : Dep} {ops : List (Op P)}
    (ht : RunTo M sem d ops t) (hs : ∀ r < activeRegions M s, ∃ q st, At M s r q st)
    {q : Name} {st : StTy} (h0 : At M s 0 q st) {hd : Cb}
    (hhd : (M.decl M.root).handler = some hd) {ev : EventTy} (hev : ev ∈ M.events)
    (hdc : M.defaultCtor st = true) (fuel : Nat) (p : P) :
    (stepOn M sem fuel (.process ev p) ((t.moveAssign s).2, false)).answer =
      match sem.handler hd ev st d p s.world with
      | .ok _ _ _ => .ok false ()
      | .throw n _ _ => .throw (.user n) ()
      | .ub => .ub .callback := by
  show (processEvent M sem.blind fuel ev p (s.hollow t.handlers)).answer = _
  rw [hollow_process hM hs]
  obtain ⟨hq, hst, hc⟩ := h0
  unfold callHandler
  rw [hhd]
  dsimp only
  unfold readCur
  rw [show (s.hollow t.handlers).cur = s.cur from rfl, hc]
  show (Res.bind (if _ then _ else _) _).answer = _
  rw [if_pos (hM.comb_lt.2 ⟨hq, hst⟩)]
  rw [show (s.hollow t.handlers).handlers ev (M.comb q st) = some (st, d) from
    (ht.tables hM).2 (by rw [hhd]; rfl) ev hev q hq st hst]
  dsimp only
  rw [if_pos (by unfold objOk; rw [hdc]; rfl)]
  rw [show (s.hollow t.handlers).world = s.world from rfl, show sem.blind.handler = sem.handler from rfl]
  cases sem.handler hd ev st d p s.world <;> rfl

/-! ### `set_dependency` for an object that was moved away -/

/-- A call of the handler for unexpected events. -/
def Call.byHandler : Call P → Bool
  | .handler .. => true
  | _ => false

theorem blind_guard {x : Exec} {ev : EventTy} {p : P} {s : SM P W} :
    (execGuard M sem.blind x ev p s).Sat True
      (fun bp s' => x.guard = none ∧ bp = (true, p) ∧ s' = s) (fun _ _ => False) := by
  unfold execGuard
  split
  · rename_i hg; exact ⟨hg, rfl, rfl⟩
  · dsimp only
    generalize (objOk M sem.blind x.src s && _) = b
    cases b <;> exact trivial

theorem blind_action {x : Exec} {ev : EventTy} {p : P} {s : SM P W} :
    (execAction M sem.blind x ev p s).Sat True (fun p' s' => p' = p ∧ s' = s) (fun _ _ => False) := by
  unfold execAction
  split
  · exact ⟨rfl, rfl⟩
  · rename_i cs _
    split
    · cases cs with
      | nil => exact ⟨rfl, rfl⟩
      | cons c cs => exact trivial
    · exact trivial

theorem Preserves.blind :
    Preserves M sem.blind True (fun _ => True) (fun s : SM P W => ∀ k ∈ s.trace, k.byHandler = true) where
  regions := fun _ _ _ _ => trivial
  look := fun _ _ _ _ _ _ _ => trivial
  null := fun _ _ _ _ _ _ _ _ _ _ _ => trivial
  guard := by
    intro s ev r c e x p hs _ _ _ _
    have := blind_guard (M := M) (sem := sem) (x := x) (ev := ev) (p := p) (s := s)
    revert this
    cases execGuard M sem.blind x ev p s with
    | ok bp s' => rintro ⟨-, -, rfl⟩; exact hs
    | throw n s' => exact False.elim
    | ub u => exact id
    | timeout => exact id
  fire := by
    intro s0 s ev r c e x p0 p _ hs _ hc he _ _
    apply Res.Sat.bind'
    · intro u s1 h
      have h1 : ∀ k ∈ s1.trace, k.byHandler = true := by
        rcases updateState_ok h with ⟨_, rfl⟩ | hm
        · exact hs
        · rw [hm.trace]; exact hs
      have := blind_action (M := M) (sem := sem) (x := x) (ev := ev) (p := p) (s := s1)
      revert this
      cases execAction M sem.blind x ev p s1 with
      | ok bp s' => rintro ⟨-, rfl⟩; exact h1
      | throw n s' => exact False.elim
      | ub u => exact id
      | timeout => exact id
    · intro n s1 h; exact absurd h updateState_throw
    · intro _ _; exact trivial
  push := fun _ _ _ _ _ _ hs _ _ _ _ => hs
  pop := fun _ _ _ _ hs _ => hs

theorem blind_step (fuel : Nat) (op : Op P) (s : SM P W) (hs : ∀ k ∈ s.trace, k.byHandler = true) :
    (stepOn M sem fuel op (s, false)).Sat True (fun _ s' => ∀ k ∈ s'.trace, k.byHandler = true)
      (fun _ s' => ∀ k ∈ s'.trace, k.byHandler = true) := by
  unfold stepOn
  rw [if_neg Bool.false_ne_true]
  cases op with
  | process ev p =>
    refine (Preserves.blind (M := M) (sem := sem)).processEvent fuel ev p _ ?_ hs
    intro s p hs
    apply Res.sat_of_true
    · intro p1 s1 h
      rcases callHandler_ok h with ⟨_, _, rfl⟩ | ⟨_, _, _, _, _, _, _, _, _, _, rfl⟩
      · exact hs
      · intro k hk
        rcases List.mem_append.1 hk with hk | hk
        · exact hs k hk
        · rw [List.mem_singleton.1 hk]; rfl
    · intro n s1 h
      rcases callHandler_throw h with ⟨_, rfl, _⟩ | ⟨_, _, _, _, _, _, _, _, _, _, _, _, _, rfl⟩
      · exact hs
      · intro k hk
        rcases List.mem_append.1 hk with hk | hk
        · exact hs k hk
        · rw [List.mem_singleton.1 hk]; rfl
  | set r p st =>
    show (Res.bind _ _).Sat _ _ _
    unfold setOp
    split
    · exact hs
    · exact hs
  | setDependency d =>
    show (Res.bind _ _).Sat _ _ _
    unfold setDependency
    split
    · exact hs
    · exact trivial

/-- Objects without state objects call no guards and no actions. -/
def Brand.Blind (B : Brand C P W) : Prop :=
  ∀ op (s : SM P W), (∀ k ∈ s.trace, k.byHandler = true) →
    (B.call op (s, false)).Sat True (fun _ s' => ∀ k ∈ s'.trace, k.byHandler = true)
      (fun _ s' => ∀ k ∈ s'.trace, k.byHandler = true)

theorem blind_of_obj (hB : B.Blind) (w : W) : ∀ (back : List (HOp C)) {rs : List Reply} {H : Heap P W},
    Heap.run B back.reverse (Heap.start w) = .ok (rs, H) → ∀ {h : Nat} {s : SM P W},
    H.obj h = some (s, false) → ∀ k ∈ s.trace, k.byHandler = true := by
  intro back
  induction back with
  | nil => intro _ _ hr _ _ ho; cases hr; cases ho
  | cons op back ih =>
    intro rs H hr h s hh
    rw [List.reverse_cons] at hr
    obtain ⟨rs1, H1, r, h1, h2⟩ := Heap.run_snoc op back.reverse _ hr
    have ih' := @ih rs1 H1 h1
    clear ih hr h1
    unfold Heap.exec at h2
    cases op with
    | create g d' =>
      dsimp only at h2
      split at h2
      · cases h2
      · split at h2
        · cases h2
          by_cases hg : h = g
          · rw [hg, Heap.put_self] at hh; cases hh
          · rw [Heap.put_ne _ _ hg] at hh; exact ih' hh
        · cases h2
    | move k g =>
      dsimp only at h2
      split at h2
      · rename_i o hk ho
        cases h2
        by_cases hg : h = g
        · rw [hg, Heap.put_self] at hh
          cases hh
          intro _ hm; cases hm
        · rw [Heap.put_ne _ _ hg] at hh
          by_cases hk : h = k
          · rw [hk, Heap.put_self] at hh
            obtain ⟨o1, o2⟩ := o
            cases hh
            exact ih' ho
          · rw [Heap.put_ne _ _ hk] at hh
            exact ih' hh
      · cases h2
    | assign k g =>
      dsimp only at h2
      split at h2
      · cases h2
      · split at h2
        · rename_i t o hk ho
          cases h2
          by_cases hg : h = g
          · rw [hg, Heap.put_self] at hh
            cases hh
            intro _ hm; cases hm
          · rw [Heap.put_ne _ _ hg] at hh
            by_cases hk : h = k
            · rw [hk, Heap.put_self] at hh
              obtain ⟨o1, o2⟩ := o
              cases hh
              exact ih' ho
            · rw [Heap.put_ne _ _ hk] at hh
              exact ih' hh
        · cases h2
    | destroy k =>
      dsimp only at h2
      split at h2
      · cases h2
      · cases h2
        by_cases hk : h = k
        · rw [hk, Heap.put_self] at hh; cases hh
        · rw [Heap.put_ne _ _ hk] at hh; exact ih' hh
    | call k op =>
      dsimp only at h2
      cases ho : H1.obj k with
      | none => rw [ho] at h2; cases h2
      | some o =>
        rw [ho] at h2
        dsimp only at h2
        obtain ⟨o1, o2⟩ := o
        unfold Heap.call at h2
        dsimp only at h2
        have h4 : ∃ s', H.obj = (H1.put k (some (s', o2))).obj ∧
            (o2 = false → ∀ k ∈ s'.trace, k.byHandler = true) := by
          have h5 : o2 = false → _ := fun h => hB op
            { o1 with world := H1.world } (@ih' k o1 (h ▸ ho))
          split at h2
          · rename_i hst
            cases h2
            refine ⟨_, rfl, ?_⟩
            rintro rfl
            have := h5 rfl
            rw [hst] at this
            exact this
          · rename_i hst
            cases h2
            refine ⟨_, rfl, ?_⟩
            rintro rfl
            have := h5 rfl
            rw [hst] at this
            exact this
          · cases h2
          · cases h2
        obtain ⟨s', h4, h5⟩ := h4
        rw [h4] at hh
        by_cases hk : h = k
        · rw [hk, Heap.put_self] at hh
          cases hh
          exact h5 rfl
        · rw [Heap.put_ne _ _ hk] at hh
          exact ih' hh

/-- C81: an object that was moved away calls no guards and no actions, whatever is done with it; what it
calls are handlers for unexpected events. -/
theorem C81_silent (fuel : Nat) (w : W) {ops : List (HOp (Op P))}
    (hops : ∀ h op, HOp.call h op ∈ ops → OpOk M op) {rs : List Reply} {H : Heap P W}
    (hr : Heap.run (.modular M sem fuel) ops (Heap.start w) = .ok (rs, H)) {h : Nat}
    (hl : life ops.reverse h = none) {o : SM P W × Bool} (ho : H.obj h = some o) :
    ∀ k ∈ o.1.trace, k.byHandler = true := by
  obtain ⟨s, b⟩ := o
  have hb := (C81_gone fuel w hops hr ho).2 hl
  subst hb
  exact blind_of_obj (fun op s hs => blind_step fuel op s hs) w ops.reverse (by rw [List.reverse_reverse]; exact hr) ho

/-- Row `t` calls nothing, and does not look at the history. -/
def Machine.Silent (M : Machine) (t : XRow) : Prop :=
  t.guard = none ∧ M.toRun t = none ∧ (t.internal = true ∨ M.historic = false)

instance (t : XRow) : Decidable (M.Silent t) := inferInstanceAs (Decidable (_ ∧ _))

/-- What a region of an object without state objects makes of an event, given the rows of the place. -/
theorem blind_regionStep (hO : M.orthogonal = false) {s s3 : SM P W} {q : Name} {st : StTy} {d : Dep}
    {ev : EventTy} {p : P} {cands : List Cand} (hc : s.cur[0]? = some (some (M.comb q st)))
    (hcur : s3.cur = s.cur) (hque : s3.queue = []) (hhist : s3.hist = s.hist.map fun _ => [])
    (hlook : lookup M ev 0 s3 = .ok ((cands.filterMap (M.entryOfCand d)).map Entry.blind) s3) :
    match (generalizing := false) cands with
    | [] => regionStep M sem.blind 0 ev p s3 = .ok (.none, p) s3
    | cd :: _ =>
      match cd.row? with
      | none => regionStep M sem.blind 0 ev p s3 = .ok (.deferred, p) { s3 with queue := [(ev, p)] }
      | some t => ∀ l, M.targetLoc t = some l →
        (M.Silent t → ∃ s4, regionStep M sem.blind 0 ev p s3 = .ok (.fired, p) s4 ∧
          (s4.cur = if t.internal then s.cur else s.cur.set 0 (some (M.comb l.1 l.2))) ∧ s4.queue = []) ∧
        (¬ M.Silent t → ∃ u, regionStep M sem.blind 0 ev p s3 = .ub u) := by
  have hsel : regionStep M sem.blind 0 ev p s3 =
      match (cands.filterMap (M.entryOfCand d)).map Entry.blind with
      | [] => .ok (.none, p) s3
      | es => tryEntries M sem.blind 0 ev es p s3 := by
    unfold regionStep
    rw [hlook]; rfl
  cases cands with
  | nil => exact hsel
  | cons cd cs =>
    rw [List.filterMap_cons] at hsel
    dsimp only
    cases hrow : cd.row? with
    | none =>
      have hcd : cd = .defer := by cases cd <;> first | rfl | cases hrow
      subst hcd
      rw [hsel]
      show Res.ok (_, p) { s3 with queue := s3.queue ++ [(ev, p)] } = _
      rw [hque]; rfl
    | some t =>
      intro l hl
      obtain ⟨e, he⟩ : ∃ e, M.entryOfCand d cd = some e := by
        cases cd with
        | defer => cases hrow
        | row t' => cases hrow; simp [Machine.entryOfCand, hl]
        | exit t' q => cases hrow; simp [Machine.entryOfCand, hl]
      rw [he] at hsel
      obtain ⟨x, hto, hdf, hin, htr, hac, hgd⟩ : ∃ x, e.to = M.comb l.1 l.2 ∧ e.defer = false ∧
          e.internal = t.internal ∧ e.tr = some x ∧ x.action = M.toRun t ∧ x.guard = t.guard := by
        rcases Machine.entryOfCand_cases he with ⟨rfl, _⟩ |
          ⟨t', l', x, h1, h2, h3, h4, h5, h6, h7, h8, h9, h10, h11, h12, h13⟩
        · cases hrow
        · have ht : t' = t := by
            rcases h1 with rfl | ⟨_, rfl⟩ <;> cases hrow <;> rfl
          subst ht
          rw [hl] at h2
          cases h2
          exact ⟨x, h3, h5, h6, h7, by rw [Machine.toRun_eq]; exact h9, h10⟩
      have htry : regionStep M sem.blind 0 ev p s3 =
          (execGuard M sem.blind x.blind ev p s3).bind fun gp s =>
            if gp.1 then (fire M sem.blind 0 ev e.blind x.blind gp.2 s).bind fun p s => .ok (.fired, p) s
            else tryEntries M sem.blind 0 ev ((cs.filterMap (M.entryOfCand d)).map Entry.blind) gp.2 s := by
        rw [hsel]
        show tryEntries M sem.blind 0 ev (e.blind :: _) p s3 = _
        rw [tryEntries]
        rw [if_neg (by rw [show e.blind.defer = e.defer from rfl, hdf]; decide)]
        rw [show e.blind.tr = some x.blind by show e.tr.map _ = _; rw [htr]; rfl]
      cases hg : t.guard with
      | some g =>
        refine ⟨fun hs => absurd (hs.1.symm.trans hg) (by simp), fun _ => ?_⟩
        obtain ⟨u, hu⟩ : ∃ u, execGuard M sem.blind x.blind ev p s3 = .ub u := by
          unfold execGuard
          rw [show x.blind.guard = some g from hgd.trans hg]
          dsimp only
          generalize (objOk M sem.blind x.blind.src s3 && _) = b
          cases b
          · exact ⟨_, rfl⟩
          · exact ⟨_, rfl⟩
        exact ⟨u, by rw [htry, hu]; rfl⟩
      | none =>
        have hask : execGuard M sem.blind x.blind ev p s3 = .ok (true, p) s3 := by
          unfold execGuard
          rw [show x.blind.guard = none from hgd.trans hg]
        rw [hask] at htry
        replace htry : regionStep M sem.blind 0 ev p s3 =
          (fire M sem.blind 0 ev e.blind x.blind p s3).bind fun p s => .ok (.fired, p) s := htry
        have hact : ∀ s4 : SM P W, (M.toRun t = none → execAction M sem.blind x.blind ev p s4 = .ok p s4) ∧
            (M.toRun t ≠ none → ∃ u, execAction M sem.blind x.blind ev p s4 = .ub u) := by
          intro s4
          unfold execAction
          have : x.blind.action = (M.toRun t).map fun _ => [(.action, 0)] := by
            show x.action.map _ = _; rw [hac]
          rw [this]
          cases M.toRun t with
          | none => exact ⟨fun _ => rfl, fun h => absurd rfl h⟩
          | some cs' =>
            refine ⟨fun h => by (cases h), fun _ => ?_⟩
            dsimp only [Option.map]
            split
            · exact ⟨_, rfl⟩
            · exact ⟨_, rfl⟩
        by_cases hmove : t.internal = true ∨ M.historic = false
        · obtain ⟨s4, hup, hcur4, hque4⟩ : ∃ s4, updateState M 0 e.blind s3 = .ok () s4 ∧
              (s4.cur = if t.internal then s.cur else s.cur.set 0 (some (M.comb l.1 l.2))) ∧
              s4.queue = [] := by
            unfold updateState
            rw [show e.blind.internal = t.internal from hin]
            cases hi : t.internal with
            | true => exact ⟨s3, rfl, hcur, hque⟩
            | false =>
              have hhi : M.historic = false := by
                rcases hmove with h | h
                · rw [hi] at h; cases h
                · exact h
              unfold moveState writeCur updateRegions
              rw [Machine.hasHistory_eq, hhi, Machine.parallel_eq, hO, hcur,
                show e.blind.to = M.comb l.1 l.2 from hto]
              have hlen : 0 < s.cur.length := (List.getElem?_eq_some_iff.1 hc).1
              simp only [Bool.false_eq_true, if_false]
              rw [if_pos hlen]
              exact ⟨_, rfl, rfl, hque⟩
          have hfire : fire M sem.blind 0 ev e.blind x.blind p s3 =
              execAction M sem.blind x.blind ev p s4 := by
            unfold fire
            rw [hup]; rfl
          rw [hfire] at htry
          refine ⟨fun hs => ?_, fun hs => ?_⟩
          · rw [(hact s4).1 hs.2.1] at htry
            exact ⟨s4, htry, hcur4, hque4⟩
          · obtain ⟨u, hu⟩ := (hact s4).2 fun h => hs ⟨hg, h, hmove⟩
            rw [hu] at htry
            exact ⟨u, htry⟩
        · refine ⟨fun hs => absurd hs.2.2 hmove, fun _ => ?_⟩
          have hi : t.internal = false := by
            cases h : t.internal with
            | true => exact absurd (Or.inl h) hmove
            | false => rfl
          have hhi : M.historic = true := by
            cases h : M.historic with
            | false => exact absurd (Or.inr h) hmove
            | true => rfl
          have hup : updateState M 0 e.blind s3 = .ub .bounds := by
            unfold updateState moveState saveHistory currentParent readCur
            rw [show e.blind.internal = t.internal from hin, hi, Machine.hasHistory_eq, hhi, hcur, hc]
            simp only [Bool.false_eq_true, if_false, if_true, Res.bind, hhist, List.getElem?_map, hcur, hc]
            cases s.hist[M.comb q st / M.nStates]? <;> rfl
          exact ⟨.bounds, by rw [htry]; unfold fire; rw [hup]; rfl⟩

/-- C81: after `set_dependency` an object that was moved away takes events again, if the first row for them
calls nothing and, unless it is internal, the machine has no history.  Otherwise the behaviour is undefined.
For machines without regions and anonymous rows. -/
theorem C81_refilled (hM : M.Regular) (hO : M.orthogonal = false) (hA : M.anonymous = false) {s s1 : SM P W}
    {q : Name} {st : StTy} (h0 : At M s 0 q st) {fuel : Nat} {d : Dep} {b : Bool}
    (h1 : stepOn M sem fuel (.setDependency d) (s.moveCtor.2, false) = .ok b s1) (ev : EventTy) (p : P) :
    match M.cands ev q st with
    | [] => (stepOn M sem fuel (.process ev p) (s1, false)).answer =
        if (M.decl M.root).handler.isSome then .ub .nullHandler else .ok false ()
    | cd :: _ =>
      match cd.row? with
      | none => ∃ s2, stepOn M sem fuel (.process ev p) (s1, false) = .ok false s2 ∧
          s2.cur = s.cur ∧ s2.queue = [(ev, p)]
      | some t => ∀ l, M.targetLoc t = some l →
        (M.Silent t → ∃ s2, stepOn M sem fuel (.process ev p) (s1, false) = .ok true s2 ∧
          s2.cur = if t.internal then s.cur else s.cur.set 0 (some (M.comb l.1 l.2))) ∧
        (¬ M.Silent t → ∃ u, stepOn M sem fuel (.process ev p) (s1, false) = .ub u) := by
  obtain ⟨hq, hst, hc⟩ := h0
  -- what `set_dependency` leaves
  obtain ⟨T, hT, rfl⟩ : ∃ T, M.fill d (fun _ _ => []) = .ok T ∧
      s1 = { s.moveCtor.2 with table := T } := by
    unfold stepOn at h1
    rw [if_neg Bool.false_ne_true] at h1
    change (setDependency M d _).bind _ = _ at h1
    obtain ⟨_, s2, h2, h3⟩ := Res.bind_ok.1 h1
    cases h3
    unfold setDependency at h2
    split at h2
    · rename_i T hT
      cases h2
      exact ⟨T, hT, rfl⟩
    · cases h2
  have hcell : T ev (M.comb q st) = (M.cands ev q st).filterMap (M.entryOfCand d) := by
    rw [Machine.fill_spec hM hT ev hq hst, List.append_nil]
  have hlt := hM.comb_lt.2 ⟨hq, hst⟩
  -- the event comes to the rows of the place
  generalize hs3 : ({ ({ s.moveCtor.2 with table := T } : SM P W) with
    table := fun ev c => (T ev c).map Entry.blind } : SM P W) = s3
  have hstep : stepOn M sem fuel (.process ev p) ({ s.moveCtor.2 with table := T }, false) =
      processEvent M sem.blind fuel ev p s3 := by rw [← hs3]; rfl
  have hcur : s3.cur = s.cur := by rw [← hs3]; rfl
  have hque : s3.queue = [] := by rw [← hs3]; rfl
  have hhnd : s3.handlers = fun _ _ => none := by rw [← hs3]; rfl
  have hhist : s3.hist = s.hist.map fun _ => [] := by rw [← hs3]; rfl
  have hlook : lookup M ev 0 s3 =
      .ok (((M.cands ev q st).filterMap (M.entryOfCand d)).map Entry.blind) s3 := by
    unfold lookup readCur
    rw [hcur, hc]
    show Res.bind (.ok _ _) _ = _
    show (if _ then _ else _) = _
    rw [if_pos hlt, ← hcell, ← hs3]
  have hreg : ∀ s4 : SM P W, currentRegions M s4 = 1 := by
    intro s4; unfold currentRegions; rw [Machine.parallel_eq, hO]; rfl
  have hanon : ∀ s4 : SM P W, processAnon M sem.blind fuel s4 = .ok () s4 := by
    intro s4; unfold processAnon; rw [Machine.hasAnon_eq, hA]; rfl
  -- what a region makes of it, the call makes of it
  have hub : ∀ u, regionStep M sem.blind 0 ev p s3 = .ub u →
      processEvent M sem.blind fuel ev p s3 = .ub u := by
    intro u h
    unfold processEvent processInternal
    rw [hreg, show List.range 1 = [0] from rfl]
    unfold regionLoop
    rw [h]; rfl
  have hnone : regionStep M sem.blind 0 ev p s3 = .ok (.none, p) s3 →
      processEvent M sem.blind fuel ev p s3 =
        (callHandler M sem.blind ev p s3).bind fun _ s => .ok false s := by
    intro h
    unfold processEvent processInternal
    rw [hreg, show List.range 1 = [0] from rfl]
    unfold regionLoop
    rw [h]; rfl
  have hdef : ∀ s4, regionStep M sem.blind 0 ev p s3 = .ok (.deferred, p) s4 →
      processEvent M sem.blind fuel ev p s3 = .ok false s4 := by
    intro s4 h
    unfold processEvent processInternal
    rw [hreg, show List.range 1 = [0] from rfl]
    unfold regionLoop
    rw [h]; rfl
  have hfired : ∀ s4, s4.queue = [] → regionStep M sem.blind 0 ev p s3 = .ok (.fired, p) s4 →
      processEvent M sem.blind fuel ev p s3 = .ok true s4 := by
    intro s4 h4 h
    unfold processEvent processInternal
    rw [hreg, show List.range 1 = [0] from rfl]
    unfold regionLoop
    rw [h]
    show Res.bind (Res.bind (processAnon M sem.blind fuel s4) _) _ = _
    rw [hanon]
    show Res.bind (processDeferred M sem.blind fuel s4) _ = _
    unfold processDeferred
    rw [h4]
    split <;> rfl
  rw [hstep]
  have hone := blind_regionStep (M := M) (sem := sem) (p := p) hO hc hcur hque hhist hlook
  cases hcs : M.cands ev q st with
  | nil =>
    rw [hcs] at hone
    rw [hnone hone]
    dsimp only
    unfold callHandler
    cases (M.decl M.root).handler with
    | none => rfl
    | some hd =>
      dsimp only
      unfold readCur
      rw [hcur, hc]
      show Res.answer (Res.bind (if _ then _ else _) _) = _
      rw [if_pos hlt, hhnd]; rfl
  | cons cd cs =>
    rw [hcs] at hone
    dsimp only at hone ⊢
    cases hrow : cd.row? with
    | none =>
      rw [hrow] at hone
      exact ⟨_, hdef _ hone, hcur, rfl⟩
    | some t =>
      rw [hrow] at hone
      intro l hl
      obtain ⟨h1, h2⟩ := hone l hl
      refine ⟨fun hs => ?_, fun hs => ?_⟩
      · obtain ⟨s4, h3, h4, h5⟩ := h1 hs
        exact ⟨s4, hfired s4 h5 h3, h4⟩
      · obtain ⟨u, hu⟩ := h2 hs
        exact ⟨u, hub u hu⟩

end
/-! ## Examples -/

namespace Ex

/-- Two machines, the first with a deferred event waiting; it moves twice, the second time over the
other one, and then goes on. -/
def errand : List (HOp (Op Nat)) :=
  [ .create 0 7, .call 0 (.process (ev 3) 1), .call 0 (.process (ev 3) 2),
    .create 1 8, .call 1 (.process (ev 5) 3),
    .move 2 0, .call 1 (.process (ev 6) 4), .assign 1 2, .destroy 0,
    .call 1 (.process (ev 1) 5) ]

/-- What the calls of a program return, and the world it leaves. -/
def heapRun (M : Machine) (sm : Sem Nat (List Nat)) (ops : List (HOp (Op Nat))) :
    Option (List Reply × List Nat) :=
  match Heap.run (.modular M sm 9) ops (Heap.start []) with
  | .ok x => some (x.1, x.2.world)
  | .error _ => none

/-- The same on machines that never move. -/
def fleetRun (M : Machine) (sm : Sem Nat (List Nat)) (ops : List (HOp (Op Nat))) :
    Option (List Reply × List Nat) :=
  match Fleet.run (.modular M sm 9) ops (Fleet.start []) with
  | .ok x => some (x.1, x.2.world)
  | .error _ => none

/-- Nothing that was moved away is used; the deferred event is replayed after the moves. -/
example : fleetRun demo (sem fun _ => true) errand =
    some ([.ret true, .ret false, .ret true, .ret true, .ret true],
      [4, 20, 102, 9, 24, 8, 21, 3, 4, 20]) := by decide +kernel

example : heapRun demo (sem fun _ => true) errand = fleetRun demo (sem fun _ => true) errand := by
  decide +kernel

/-- The calls the machine now in variable 1 got. -/
example : (life errand.reverse 1).map (fun x => (x.1, x.2.length)) = some (7, 3) := by
  decide +kernel

example : life errand.reverse 2 = none := rfl

/-- A state as in `C81_left` and `C81_swapped`. -/
example : ∃ s, RunTo demo (sem fun _ => true) 0 [.process (ev 0) 1] s ∧
    (∀ r < activeRegions demo s, ∃ q st, At demo s r q st) ∧ At demo s 0 Root (.st Busy) ∧
    demo.defaultCtor (.st Busy) = true := by
  obtain ⟨s, hr, hs⟩ := exists_run (M := demo) (sm := sem fun _ => true) (fuel := 9) (d := 0)
    (w := []) (ops := [.process (ev 0) 1])
    (f := fun s => decide (s.cur = [some (demo.comb Root (.st Busy))] ∧
      activeRegions demo s = 1)) (by decide +kernel)
  obtain ⟨h1, h2⟩ := of_decide_eq_true hs
  have h : At demo s 0 Root (.st Busy) :=
    ⟨by decide +kernel, by decide +kernel, by rw [h1]; rfl⟩
  refine ⟨s, hr, fun r hr => ?_, h, rfl⟩
  rw [h2] at hr
  obtain rfl : r = 0 := by omega
  exact ⟨_, _, h⟩

/-- Rows that call nothing, one with a guard, one with an action, and an internal row without an action in a
state with an entry action. -/
def husk : Machine := .ofList
  [ { table := some [ row (ini 1) (ev 0) none none (.st 3), row (.st 3) (ev 0) none (some 2) (.st 1),
      row (.st 3) (ev 1) none none (.st 1), row (ini 1) (ev 2) (some 10) none (.st 3),
      row (.st 3) (ev 3) none none (.st 2) ] },
    { }, { itable := some [ ⟨ev 0, none, none⟩ ], onEntry := some 20 }, { } ] [1]

theorem husk_regular : husk.Regular := Machine.regular_ofList (by decide +kernel)

/-- What happened to a program. -/
def heapEnd (ops : List (HOp (Op Nat))) : List Reply ⊕ Stuck :=
  match Heap.run (.modular husk (sem fun _ => true) 9) ops (Heap.start []) with
  | .ok x => .inl x.1
  | .error e => .inr e

/-- What was moved away does nothing, until its dependency is set; then it takes the rows that call
nothing. -/
example : heapEnd [ .create 0 7, .move 1 0, .call 0 (.process (ev 0) 1), .call 0 (.setDependency 8),
    .call 0 (.process (ev 0) 1), .call 0 (.process (ev 1) 1), .call 0 (.process (ev 0) 1),
    .call 1 (.process (ev 2) 1) ] =
    .inl [.ret false, .ret true, .ret true, .ret true, .ret true, .ret true] := by decide +kernel

/-- A row with a guard, one with an action, and one with an action that does nothing. -/
example : ∀ e ∈ [([ev 2] : List EventTy), [ev 0, ev 0]],
    heapEnd ([.create 0 7, .move 1 0, .call 0 (.setDependency 8)] ++ e.map fun e => .call 0 (.process e 1)) =
      .inr (.ub .callback) := by decide +kernel

example : heapEnd [ .create 0 7, .call 0 (.process (ev 0) 1), .call 0 (.process (ev 3) 1), .move 1 0,
    .call 1 (.process (ev 0) 1), .call 0 (.setDependency 8), .call 0 (.process (ev 0) 1) ] =
      .inr (.ub .callback) := by decide +kernel

/-- The object of the first example meets the hypotheses of `C81_refilled`; rows of both kinds. -/
example : husk.orthogonal = false ∧ husk.anonymous = false ∧
    (∃ s s1 : SM Nat (List Nat), At husk s 0 0 (.st 1) ∧
      stepOn husk (sem fun _ => true) 9 (.setDependency 8) (s.moveCtor.2, false) = .ok true s1) ∧
    ((husk.cands (ev 0) 0 (.st 1)).filterMap Cand.row?).map (fun t => decide (husk.Silent t)) = [true] ∧
    ((husk.cands (ev 2) 0 (.st 1)).filterMap Cand.row?).map (fun t => decide (husk.Silent t)) = [false] := by
  refine ⟨by decide +kernel, by decide +kernel, ?_, by decide +kernel, by decide +kernel⟩
  obtain ⟨s, hr, hs⟩ := exists_run (M := husk) (sm := sem fun _ => true) (fuel := 9) (d := 0)
    (w := []) (ops := []) (f := fun s => decide (s.cur = [some (husk.comb 0 (.st 1))])) (by decide +kernel)
  have h : At husk s 0 0 (.st 1) :=
    ⟨by decide +kernel, by decide +kernel, by rw [of_decide_eq_true hs]; rfl⟩
  obtain ⟨T, hT⟩ : ∃ T, husk.fill 8 (fun _ _ => []) = .ok T := by
    cases h : husk.fill 8 (fun _ _ => []) with
    | ok T => exact ⟨T, rfl⟩
    | error e =>
      have : (match husk.fill 8 (fun _ _ => []) with | .ok _ => true | .error _ => false) = true := by
        decide +kernel
      rw [h] at this
      cases this
  refine ⟨s, { s.moveCtor.2 with table := T }, h, ?_⟩
  unfold stepOn
  rw [if_neg Bool.false_ne_true]
  unfold step setDependency
  dsimp only
  rw [show (fun ev c => List.map Entry.blind (s.moveCtor.2.table ev c)) = fun _ _ => [] from rfl, hT]
  rfl

/-- Why what was moved away should not be used: the handler is called through a null pointer. -/
theorem C81_use_after_move : ∃ ops : List (HOp (Op Nat)),
    Heap.run (.modular demo (sem fun _ => true) 9) ops (Heap.start []) = .error (.ub .nullHandler) :=
  ⟨[.create 0 7, .move 1 0, .call 0 (.process (ev 0) 1)], by
    unfold Heap.run
    rfl⟩

end Ex
end Hsm
