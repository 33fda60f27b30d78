import Verif.LayersGen
import Verif.PropsLayers
import Verif.PropsSystemsGen
import Verif.PropsEndingGen

/-!
# Programs in layers, with the amalgamated header (C128)
-/

namespace Hsm

/-! ## Callbacks that amount to the same -/

section
variable {P W W' : Type} {T X : Prop} {V : UB → Prop} {ρ : W → W' → Prop} {M : Machine} {sem : SemR P W} {sem' : SemR P W'}
  {call : Op P → SM P W → Res (SM P W) Bool} {call' : Op P → SM P W' → Res (SM P W') Bool}
  (hs : sem.Tracks T X V ρ call sem' call')
include hs

theorem anonRoundGR_tracks : ∀ (rs : List Nat) (agf : Bool) (s : SM P W) (w' : W'), ρ s.world w' →
    (anonRoundGR M sem call rs agf s).Tracks T X V ρ (anonRoundGR M sem' call' rs agf (s.rebase w')) := by
  intro rs
  induction rs with
  | nil => intro agf s w' h; exact ⟨rfl, w', rfl, h⟩
  | cons r rs ih =>
    intro agf s w' h
    refine (readCur_sim h r).tracks.bind fun c s w' h => ?_
    split
    · show Res.Tracks T X V ρ _ (match s.table .none c with | [] => _ | es => _)
      generalize s.table .none c = o
      cases o
      · exact ⟨rfl, w', rfl, h⟩
      · rw [hs.nonePayload]
        exact (tryAnonR_tracks hs _ _ _ _ _ _ _ h).bind fun fp s w' h => ih _ _ _ h
    · exact Or.inl rfl

theorem anonLoopGR_tracks : ∀ (fuel : Nat) (s : SM P W) (w' : W'), ρ s.world w' →
    (anonLoopGR M sem call fuel s).Tracks T X V ρ (anonLoopGR M sem' call' fuel (s.rebase w')) := by
  intro fuel
  induction fuel with
  | zero => intro s w' h; trivial
  | succ fuel ih =>
    intro s w' h
    refine (anonRoundGR_tracks hs _ _ _ _ h).bind fun op s w' h => ?_
    split
    · exact ⟨rfl, w', rfl, h⟩
    · exact ⟨rfl, w', rfl, h⟩
    · exact ih _ _ h

theorem processInternalGR_tracks (fuel : Nat) (ev : EventTy) (p : P) {s : SM P W} {w' : W'} (h : ρ s.world w') :
    (processInternalGR M sem call fuel ev p s).Tracks T X V ρ (processInternalGR M sem' call' fuel ev p (s.rebase w')) := by
  refine (regionLoopR_tracks hs ev _ _ _ _ _ _ h).bind fun op s w' h => ?_
  split
  · exact ⟨rfl, w', rfl, h⟩
  · split
    · exact ⟨rfl, w', rfl, h⟩
    · split
      · exact ⟨rfl, w', rfl, h⟩
      · refine Res.Tracks.bind ?_ fun _ s w' h => ⟨rfl, w', rfl, h⟩
        unfold processAnonGR
        split
        · exact anonLoopGR_tracks hs _ _ _ h
        · exact ⟨rfl, w', rfl, h⟩

/-- `process_event` does the same in related worlds. -/
theorem processEventGR_tracks (fuel : Nat) (ev : EventTy) (p : P) {s : SM P W} {w' : W'} (h : ρ s.world w') :
    (processEventGR M sem call fuel ev p s).Tracks T X V ρ (processEventGR M sem' call' fuel ev p (s.rebase w')) := by
  refine (processInternalGR_tracks hs fuel ev p h).bind fun bp s w' h => ?_
  split
  · unfold processDeferredGR
    split
    · show Res.Tracks T X V ρ _ (match s.queue with | [] => _ | (e, p) :: q => _)
      rcases hq : s.queue with _ | ⟨⟨e, p⟩, q⟩
      · exact ⟨rfl, w', rfl, h⟩
      · exact (processInternalGR_tracks hs fuel e p (s := { s with queue := q }) h).bind
          fun _ s w' h => ⟨rfl, w', rfl, h⟩
    · exact ⟨rfl, w', rfl, h⟩
  · exact (callHandlerR_tracks hs ev _ h).bind fun _ s w' h => ⟨rfl, w', rfl, h⟩

end

section
variable {ι P W : Type} [DecidableEq ι] {Ms : ι → Machine} {sem : SemS ι P W} {layer : ι → Nat}

theorem stepGS_upTo {fuel fuel' : Nat} (hf : fuel ≤ fuel') : ∀ {n n' : Nat}, n ≤ n' → ∀ (i : ι) (op : Op P)
    (h : Hub ι P W), (stepGS Ms sem fuel n i op h).UpTo (stepGS Ms sem fuel' n' i op h) := by
  intro n
  induction n with
  | zero => intro n' _ i op h; exact Or.inl rfl
  | succ n ih =>
    intro n' hn i op h
    obtain ⟨m, rfl⟩ : ∃ m, n' = m + 1 := ⟨n' - 1, by omega⟩
    cases op with
    | process ev p =>
      unfold stepGS
      rcases (processEventGR_upTo (M := Ms i) (sem := sem.at i (.process ev p))
        (nested_upTo (ih (n' := m) (by omega)) i) hf ev p (h.fetch i)).bind (f := fun _ s => .ok true s)
        (fun _ _ => .refl _) with h | h <;> simp only [h]
      · exact Or.inl rfl
      · exact .refl _
    | set r p st => exact .refl _
    | setDependency d => exact .refl _

/-- What a callback amounts to is what it does, whatever bounds suffice. -/
theorem SProg.effectG_eq {α : Type} (pr : SProg ι P W α) (p : P) (h : Hub ι P W) {fuel n : Nat}
    (hx : pr.play (stepGS Ms sem fuel n) h ≠ .timeout) :
    pr.effectG Ms sem p h = (pr.play (stepGS Ms sem fuel n) h).toCb p := by
  have hex : ∃ fn : Nat × Nat, pr.play (stepGS Ms sem fn.1 fn.2) h ≠ .timeout := ⟨(fuel, n), hx⟩
  unfold SProg.effectG
  rw [dif_pos hex]
  have h1 := (play_upTo (stepGS_upTo (Ms := Ms) (sem := sem) (Nat.le_max_left fuel hex.choose.1)
    (Nat.le_max_left n hex.choose.2)) pr h).resolve_left hx
  have h2 := (play_upTo (stepGS_upTo (Ms := Ms) (sem := sem) (Nat.le_max_right fuel hex.choose.1)
    (Nat.le_max_right n hex.choose.2)) pr h).resolve_left hex.choose_spec
  rw [h2, ← h1]

theorem SemS.LayeredG.sim (hs : sem.LayeredG Ms layer) (L : Nat) (j : ι) (h h' : Hub ι P W) (o o' : Op P) :
    (sem.at j o).Sim (Hub.Kept layer L j h h') (Hub.Asked layer L j h h') (sem.at j o') where
  guard g a p w w' hw := by
    obtain ⟨g1, g2, g3, g4⟩ := hw
    show (SProg.prog o (sem.guard j g a p w.user) w.parts).Sim _ _ (SProg.prog o' (sem.guard j g a p w'.user) w'.parts)
    rw [g1]
    exact (hs.guard j g a p _).sim (fun _ _ h => h.1) _ _ g2 g3 g4
  action c a p w w' hw := by
    obtain ⟨g1, g2, g3, g4⟩ := hw
    show (SProg.prog o (sem.action j c a p w.user) w.parts).Sim _ _ (SProg.prog o' (sem.action j c a p w'.user) w'.parts)
    rw [g1]
    exact (hs.action j c a p _).sim (fun _ _ h => h.1) _ _ g2 g3 g4
  handler c e st d p w w' hw := by
    obtain ⟨g1, g2, g3, g4⟩ := hw
    show (SProg.prog o (sem.handler j c e st d p w.user) w.parts).Sim _ _
      (SProg.prog o' (sem.handler j c e st d p w'.user) w'.parts)
    rw [g1]
    exact (hs.handler j c e st d p _).sim (fun _ _ h => h.1) _ _ g2 g3 g4
  alive st w w' hw := by
    show sem.alive j st w.user = sem.alive j st w'.user
    rw [hw.1]
  nonePayload := rfl

theorem stepGS_near (hs : sem.LayeredG Ms layer) (fuel : Nat) {L : Nat} : ∀ n {j : ι} (op : Op P) {h h' : Hub ι P W},
    layer j < L → h.Near layer L h' →
      (stepGS Ms sem fuel n j op h).Near layer L j h h' (stepGS Ms sem fuel n j op h') := by
  intro n
  induction n with
  | zero => intro j op h h' _ _; trivial
  | succ n ih =>
    intro j op h h' hj hh
    have hw : Hub.Kept layer L j h h' { h with request := none } { h' with request := none } :=
      ⟨hh.1, fun k _ hk => hh.2 k hk, fun _ _ _ => rfl, fun _ _ _ => rfl⟩
    have hf : h'.fetch j = (h.fetch j).rebase { h' with request := none } := by
      unfold Hub.fetch
      rw [← hh.2 j hj]
      rfl
    have hw' : Hub.Kept layer L j h h' (h.fetch j).world { h' with request := none } := hw
    unfold stepGS
    refine Hub.Kept.home ?_
    rw [hf]
    cases op with
    | set r p st =>
      exact ⟨rfl, _, rfl, hw'⟩
    | setDependency d =>
      exact (setDependencyG_sim hw' _).bind fun _ s w' h => ⟨rfl, w', rfl, h⟩
    | process ev p =>
      refine (processEventGR_sim (hs.sim L j h h' _ _) ?_ fuel ev p hw').bind fun _ s w' h => ⟨rfl, w', rfl, h⟩
      rintro _ _ s w' ⟨⟨g1, g2, g3, g4⟩, g5, g6⟩
      unfold nested
      show Res.Sim _ (match s.world.request with | none => _ | some (j, op) => _)
        (match w'.request with | none => _ | some (j, op) => _)
      rw [← g5]
      rcases hr : s.world.request with _ | ⟨k, op⟩
      · trivial
      · dsimp only
        have hk := g6 k op hr
        have hnear : (s.world.store j s).Near layer L (w'.store j (s.rebase w')) := by
          refine ⟨g1, fun i hi => ?_⟩
          show (if i = j then _ else _) = (if i = j then _ else _)
          split
          · rfl
          · next hne => exact g2 i hne hi
        have := ih op (Nat.lt_trans hk hj) hnear
        have hjk : j ≠ k := fun he => by rw [he] at hk; exact Nat.lt_irrefl _ hk
        have key : ∀ {g g' : Hub ι P W}, g.Near layer L g' → (s.world.store j s).Within layer k g →
            (w'.store j (s.rebase w')).Within layer k g' → (g.fetch j).Sim (Hub.Kept layer L j h h') (g'.fetch j) := by
          intro g g' e1 e2 e3
          refine ⟨{ g' with request := none }, ?_, e1.1, fun i _ hi => e1.2 i hi, fun i hi hl => ?_, fun i hi hl => ?_⟩
          · unfold Hub.fetch
            rw [← e1.2 j hj]
            rfl
          · have hik : i ≠ k := fun he => by rw [he] at hl; exact Nat.lt_irrefl _ (Nat.lt_of_lt_of_le hk hl)
            exact (e2 i hik (Nat.le_of_lt (Nat.lt_of_lt_of_le hk hl))).trans ((if_neg hi).trans (g3 i hi hl))
          · have hik : i ≠ k := fun he => by rw [he] at hl; exact Nat.lt_irrefl _ (Nat.lt_of_lt_of_le hk hl)
            exact (e3 i hik (Nat.le_of_lt (Nat.lt_of_lt_of_le hk hl))).trans ((if_neg hi).trans (g4 i hi hl))
        show Res.Sim _ (Res.back j (stepGS Ms sem fuel n k op (s.world.store j s)))
          (Res.back j (stepGS Ms sem fuel n k op (w'.store j (s.rebase w'))))
        revert this
        generalize stepGS Ms sem fuel n k op (s.world.store j s) = q
        generalize stepGS Ms sem fuel n k op (w'.store j (s.rebase w')) = q'
        intro this
        cases q <;> cases q' <;> first | exact this.elim | exact this | exact ⟨this.1, key this.2.1 this.2.2.1 this.2.2.2⟩

theorem stepGS_within (hs : sem.LayeredG Ms layer) (fuel n : Nat) (j : ι) (op : Op P) (h : Hub ι P W) :
    (stepGS Ms sem fuel n j op h).Out (h.Within layer j) := by
  have := stepGS_near (Ms := Ms) (L := layer j + 1) hs fuel n op (h := h) (h' := h) (Nat.lt_succ_self _) ⟨rfl, fun _ _ => rfl⟩
  revert this
  generalize stepGS Ms sem fuel n j op h = q
  intro this
  cases q <;> first | exact this.2.2.1 | trivial

variable {O : ι → Op P → Prop}

/-- The members of a machine after a history of it on its own, in which the calls `base` occur in order. -/
def LedG (Ms : ι → Machine) (sem : SemS ι P W) (O : ι → Op P → Prop) (d : ι → Dep) (base : List (Op P)) (k : ι) (x : SM P Unit) : Prop :=
  ∃ ops w, base.Sublist ops ∧ (∀ op ∈ ops, O k op) ∧ RunToGR (Ms k) (sem.soloG Ms k).lift (d k) ops (x.rebase w)

theorem LedG.mono {d : ι → Dep} {base base' : List (Op P)} {k : ι} {x : SM P Unit} (h : LedG Ms sem O d base k x)
    (hb : base'.Sublist base) : LedG Ms sem O d base' k x := by
  obtain ⟨ops, w, h1, h2, h3⟩ := h
  exact ⟨ops, w, hb.trans h1, h2, h3⟩

theorem LedG.fetch {d : ι → Dep} {base : List (Op P)} {k : ι} {h : Hub ι P W} (hl : LedG Ms sem O d base k (h.parts k)) :
    ∃ ops, base.Sublist ops ∧ (∀ op ∈ ops, O k op) ∧ RunToGR (Ms k) (sem.soloG Ms k).lift (d k) ops (h.fetch k) := by
  obtain ⟨ops, w, h1, h2, h3⟩ := hl
  exact ⟨ops, h1, h2, h3.world { h with request := none }⟩

theorem play_shadowsG {T Y : Prop} {V : UB → Prop} {O : ι → Op P → Prop} {Φ : Hub ι P W → Prop} {α : Type}
    (hs : sem.LayeredG Ms layer) {fuel n : Nat} {j : ι}
    {h : Hub ι P W} (hΦ : ∀ g g' : Hub ι P W, (∀ k, layer k < layer j → g.parts k = g'.parts k) → Φ g → Φ g')
    (hc : ∀ k op g, layer k < layer j → OpOkGR (Ms k) op → O k op → Φ g → (stepGS Ms sem fuel n k op g).Out Φ)
    (hT : T ∨ ∀ k op g, layer k < layer j → OpOkGR (Ms k) op → O k op → Φ g → stepGS Ms sem fuel n k op g ≠ .timeout)
    (hV : ∀ k op g, layer k < layer j → OpOkGR (Ms k) op → O k op → Φ g → ∀ u, stepGS Ms sem fuel n k op g = .ub u → V u)
    (hY : Y → V .callback)
    {pr : SProg ι P W α} (hp : pr.Good True fun k op => layer k < layer j ∧ OpOkGR (Ms k) op)
    (ho : pr.Good Y O) (o : Op P) :
    ∀ (s : SM P (Hub ι P W)) (m : ι → SM P Unit) (w' : Hub ι P W), (∀ k, layer k < layer j → m k = w'.parts k) →
      Φ w' → (∀ k, k ≠ j → layer j ≤ layer k → m k = h.parts k) →
      Shadows T V Φ layer j h s (runProg (nested (stepGS Ms sem fuel n) j) (pr.prog o m) s)
        (pr.play (stepGS Ms sem fuel n) w') := by
  induction pr with
  | ret a p w =>
    intro s m w' h1 h2 h3
    exact ⟨rfl, _, rfl, rfl, h1, hΦ _ _ (fun k hk => (h1 k hk).symm) h2, h3⟩
  | throw x w =>
    intro s m w' h1 h2 h3
    exact ⟨_, rfl, rfl, h1, hΦ _ _ (fun k hk => (h1 k hk).symm) h2, h3⟩
  | ub => intro s m w' h1 h2 h3; exact hY ho
  | call k op w kk ih =>
    intro s m w' h1 h2 h3
    obtain ⟨⟨hk, hop⟩, hp'⟩ := hp
    obtain ⟨hO, ho'⟩ := ho
    have hjk : j ≠ k := fun he => by rw [he] at hk; exact Nat.lt_irrefl _ hk
    unfold SProg.play
    have hn : nested (stepGS Ms sem fuel n) j o { s with world := ⟨w, m, some (k, op)⟩ } = Res.back j (stepGS Ms sem fuel n
      k op (Hub.store ⟨w, m, some (k, op)⟩ j { s with world := ⟨w, m, some (k, op)⟩ })) := rfl
    unfold SProg.prog runProg
    rw [hn]
    have hlow : ∀ i, layer i < layer j → (Hub.store (⟨w, m, some (k, op)⟩ : Hub ι P W) j
        { s with world := ⟨w, m, some (k, op)⟩ }).parts i = w'.parts i := by
      intro i hi
      have hij : i ≠ j := fun he => by rw [he] at hi; exact Nat.lt_irrefl _ hi
      exact (if_neg hij).trans (h1 i hi)
    have hnear := stepGS_near (L := layer j) hs fuel n op (h := Hub.store ⟨w, m, some (k, op)⟩ j
      { s with world := ⟨w, m, some (k, op)⟩ }) (h' := ⟨w, w'.parts, none⟩) hk ⟨rfl, hlow⟩
    have hΦ0 : Φ (Hub.store ⟨w, m, some (k, op)⟩ j { s with world := ⟨w, m, some (k, op)⟩ }) :=
      hΦ _ _ (fun i hi => (hlow i hi).symm) h2
    have hout := hc k op _ hk hop hO hΦ0
    have hcl := hV k op (Hub.store ⟨w, m, some (k, op)⟩ j { s with world := ⟨w, m, some (k, op)⟩ }) hk hop hO hΦ0
    have hto : T ∨ stepGS Ms sem fuel n k op (Hub.store ⟨w, m, some (k, op)⟩ j
        { s with world := ⟨w, m, some (k, op)⟩ }) ≠ .timeout := hT.imp id fun h => h k op _ hk hop hO hΦ0
    have key : ∀ {g g' : Hub ι P W}, g.Near layer (layer j) g' → (Hub.store (⟨w, m, some (k, op)⟩ : Hub ι P W) j
        { s with world := ⟨w, m, some (k, op)⟩ }).Within layer k g → Φ g → ∀ r,
        Shadows T V Φ layer j h s (runProg (nested (stepGS Ms sem fuel n) j)
          ((kk r (g.fetch j).world.user).prog o (g.fetch j).world.parts) (g.fetch j))
          ((kk r g'.user).play (stepGS Ms sem fuel n) g') := by
      intro g g' e1 e2 e3 r
      have hfetch : g.fetch j = { s with world := { g with request := none } } := by
        have : g.parts j = s.rebase () := (e2 j hjk (Nat.le_of_lt hk)).trans (if_pos rfl)
        unfold Hub.fetch
        rw [this]
        rfl
      have := ih r g'.user (hp' _ _) (ho' _ _) (g.fetch j) g.parts g' e1.2 (hΦ _ _ e1.2 e3) (fun i hi hl => by
        have hik : i ≠ k := fun he => by rw [he] at hl; exact Nat.lt_irrefl _ (Nat.lt_of_lt_of_le hk hl)
        exact (e2 i hik (Nat.le_of_lt (Nat.lt_of_lt_of_le hk hl))).trans ((if_neg hi).trans (h3 i hi hl)))
      have hu : (g.fetch j).world.user = g'.user := e1.1
      have hm : (g.fetch j).world.parts = g.parts := rfl
      rw [hu, hm]
      revert this
      rw [hfetch]
      generalize runProg (nested (stepGS Ms sem fuel n) j) ((kk r g'.user).prog o g.parts) _ = q
      generalize (kk r g'.user).play (stepGS Ms sem fuel n) g' = q'
      intro this
      cases q <;> cases q' <;> exact this
    revert hnear hout hto hcl
    generalize stepGS Ms sem fuel n k op (Hub.store ⟨w, m, some (k, op)⟩ j
      { s with world := ⟨w, m, some (k, op)⟩ }) = q
    generalize stepGS Ms sem fuel n k op ⟨w, w'.parts, none⟩ = q'
    intro hnear hout hcl hto
    cases q <;> cases q' <;> first | exact hnear.elim | skip
    · obtain ⟨rfl, e1, e2, _⟩ := hnear
      exact key e1 e2 hout _
    · obtain ⟨rfl, e1, e2, _⟩ := hnear
      exact key e1 e2 hout _
    · exact hcl _ rfl
    · exact hto.resolve_right fun h => h rfl

theorem Shadows.tracksG {T X : Prop} {V : UB → Prop} {Φ : Hub ι P W → Prop} {α : Type} {fuel n : Nat} {j : ι} {h : Hub ι P W}
    {s : SM P (Hub ι P W)} {w' : Hub ι P W} {pr : SProg ι P W α} {q : Res (SM P (Hub ι P W)) (α × P)} (p : P)
    {call : Op P → SM P (Hub ι P W) → Res (SM P (Hub ι P W)) Bool}
    (hf : Shadows T V Φ layer j h s q (pr.play (stepGS Ms sem fuel n) w')) :
    ∀ {cb : CbRes P (Hub ι P W) α}, X ∧ pr.effectG Ms sem p w' = .ub ∨ cb = pr.effectG Ms sem p w' →
    q.Tracks T X V (Hub.Trail Φ layer j h) (runProg call cb.prog (s.rebase w')) := by
  intro cb hcb
  have he := pr.effectG_eq (Ms := Ms) (sem := sem) p w' (fuel := fuel) (n := n)
  revert hf he
  generalize pr.play (stepGS Ms sem fuel n) w' = q'
  intro hf he
  cases q <;> cases q' <;> first | exact hf.elim | skip
  · rw [he (fun h => by cases h)] at hcb
    obtain rfl := hcb.resolve_left fun h => by cases h.2
    obtain ⟨rfl, w, rfl, hw⟩ := hf
    exact ⟨rfl, _, rfl, hw⟩
  · rw [he (fun h => by cases h)] at hcb
    obtain rfl := hcb.resolve_left fun h => by cases h.2
    obtain ⟨w, rfl, hw⟩ := hf
    exact ⟨_, rfl, hw⟩
  · rw [he (fun h => by cases h)] at hcb
    rcases hcb with h | rfl
    · cases runProg call cb.prog (s.rebase w') <;> first | exact ⟨h.1, hf⟩ | exact Or.inr hf
    · exact Or.inr hf
  · cases runProg call cb.prog (s.rebase w') <;> first | exact hf | trivial

theorem SemS.LayeredG.tracks {T X Y : Prop} {V : UB → Prop} {O : ι → Op P → Prop} {Φ : Hub ι P W → Prop}
    (hs : sem.LayeredG Ms layer) {fuel n : Nat} {j : ι}
    {h : Hub ι P W} (hΦ : ∀ g g' : Hub ι P W, (∀ k, layer k < layer j → g.parts k = g'.parts k) → Φ g → Φ g')
    (hc : ∀ k op g, layer k < layer j → OpOkGR (Ms k) op → O k op → Φ g → (stepGS Ms sem fuel n k op g).Out Φ)
    (hT : T ∨ ∀ k op g, layer k < layer j → OpOkGR (Ms k) op → O k op → Φ g → stepGS Ms sem fuel n k op g ≠ .timeout)
    (hV : ∀ k op g, layer k < layer j → OpOkGR (Ms k) op → O k op → Φ g → ∀ u, stepGS Ms sem fuel n k op g = .ub u → V u)
    (hY : Y → V .callback) (hO : sem.Good Y O) {σ : Sem P (Hub ι P W)} (hσ : σ.Fills X (sem.soloG Ms j)) (o : Op P)
    (call : Op P → SM P (Hub ι P W) → Res (SM P (Hub ι P W)) Bool) :
    (sem.at j o).Tracks T X V (Hub.Trail Φ layer j h) (nested (stepGS Ms sem fuel n) j) σ.lift call where
  guard g a p s w' hw := by
    obtain ⟨g1, g2, g3, g4⟩ := hw
    have := play_shadowsG hs hΦ hc hT hV hY (hs.guard j g a p w'.user) (hO.guard j g a p w'.user) o s s.world.parts w' g2 (hΦ _ _ g2 g3) g4
    show (runProg _ (SProg.prog o (sem.guard j g a p s.world.user) s.world.parts) s).Tracks T X V _ _
    rw [g1]
    exact this.tracksG p (hσ.guard g a p w')
  action c a p s w' hw := by
    obtain ⟨g1, g2, g3, g4⟩ := hw
    have := play_shadowsG hs hΦ hc hT hV hY (hs.action j c a p w'.user) (hO.action j c a p w'.user) o s s.world.parts w' g2 (hΦ _ _ g2 g3) g4
    show (runProg _ (SProg.prog o (sem.action j c a p s.world.user) s.world.parts) s).Tracks T X V _ _
    rw [g1]
    exact this.tracksG p (hσ.action c a p w')
  handler c e st d p s w' hw := by
    obtain ⟨g1, g2, g3, g4⟩ := hw
    have := play_shadowsG hs hΦ hc hT hV hY (hs.handler j c e st d p w'.user) (hO.handler j c e st d p w'.user) o s s.world.parts w' g2 (hΦ _ _ g2 g3) g4
    show (runProg _ (SProg.prog o (sem.handler j c e st d p s.world.user) s.world.parts) s).Tracks T X V _ _
    rw [g1]
    exact this.tracksG p (hσ.handler c e st d p w')
  alive st w w' hw := by
    show sem.alive j st w.user = σ.alive st w'
    rw [hw.1, hσ.alive]
    rfl
  nonePayload := hσ.nonePayload.symm

/-- A call in the program, before it is put back, and the call on the machine on its own. -/
theorem stepGS_tracks {T X Y : Prop} {V : UB → Prop} {O : ι → Op P → Prop} {Φ : Hub ι P W → Prop}
    (hs : sem.LayeredG Ms layer) {fuel n : Nat} {j : ι}
    (hΦ : ∀ g g' : Hub ι P W, (∀ k, layer k < layer j → g.parts k = g'.parts k) → Φ g → Φ g')
    (hc : ∀ k op g, layer k < layer j → OpOkGR (Ms k) op → O k op → Φ g → (stepGS Ms sem fuel n k op g).Out Φ)
    (hT : T ∨ ∀ k op g, layer k < layer j → OpOkGR (Ms k) op → O k op → Φ g → stepGS Ms sem fuel n k op g ≠ .timeout)
    (hV : ∀ k op g, layer k < layer j → OpOkGR (Ms k) op → O k op → Φ g → ∀ u, stepGS Ms sem fuel n k op g = .ub u → V u)
    (hY : Y → V .callback) (hO : sem.Good Y O) {σ : Sem P (Hub ι P W)} (hσ : σ.Fills X (sem.soloG Ms j)) (op : Op P)
    {h : Hub ι P W} (hh : Φ h) : ∃ q : Res (SM P (Hub ι P W)) Bool, stepGS Ms sem fuel (n + 1) j op h = q.home j ∧
      q.Tracks T X V (Hub.Trail Φ layer j h) (stepGR (Ms j) σ.lift fuel 1 op (h.fetch j)) := by
  have hw : Hub.Trail Φ layer j h (h.fetch j).world { h with request := none } :=
    ⟨rfl, fun _ _ => rfl, hΦ h _ (fun _ _ => rfl) hh, fun _ _ _ => rfl⟩
  cases op with
  | process ev p => exact ⟨_, rfl, (processEventGR_tracks (hs.tracks hΦ hc hT hV hY hO hσ (.process ev p) _) fuel ev p hw).bind
    fun _ s w' h => ⟨rfl, w', rfl, h⟩⟩
  | set r p st =>
    exact ⟨_, rfl, rfl, _, rfl, hw⟩
  | setDependency d =>
    exact ⟨_, rfl, (setDependencyG_sim (M := Ms j) hw d).tracks.bind fun _ s w' h => ⟨rfl, w', rfl, h⟩⟩

theorem SemS.LayeredG.free (hs : sem.LayeredG Ms layer) : sem.Good True fun _ _ => True :=
  ⟨fun i g a p w => (hs.guard i g a p w).mono id fun _ _ _ => trivial,
    fun i c a p w => (hs.action i c a p w).mono id fun _ _ _ => trivial,
    fun i c e st d p w => (hs.handler i c e st d p w).mono id fun _ _ _ => trivial⟩

/-- In layered programs no iterator is invalidated: the machine whose table is looped over is not called. -/
theorem stepGS_clear (hs : sem.LayeredG Ms layer) (fuel : Nat) : ∀ (n : Nat) (j : ι) (op : Op P) (h : Hub ι P W),
    (stepGS Ms sem fuel n j op h).Clear := by
  intro n
  induction n with
  | zero => intro j op h; exact fun h => nomatch h
  | succ n ih =>
    intro j op h
    obtain ⟨q, h1, h2⟩ := stepGS_tracks (T := True) (X := False) (V := (· ≠ .iterator)) (Φ := fun _ => True) (fuel := fuel) (n := n)
      (j := j) hs
      (fun _ _ _ h => h) (fun k op g _ _ _ _ => by cases stepGS Ms sem fuel n k op g <;> trivial) (Or.inl trivial)
      (fun k op g _ _ _ _ u hu e => ih k op g (by rw [hu, e])) (fun _ e => nomatch e) hs.free (.refl _) op (h := h) trivial
    rw [h1]
    intro hu
    cases q with
    | ok b s => cases hu
    | throw x s => cases hu
    | timeout => cases hu
    | ub u =>
      cases hu
      revert h2
      have hcl : (stepGR (Ms j) (sem.soloG Ms j).lift fuel 1 op (h.fetch j)).Clear := by
        cases op with
        | set r p st => exact fun h => nomatch h
        | process ev p =>
          rw [show Op.process ev p = (OpG.process ev p).op from rfl, stepGR_lift]
          exact (stepG_clear _ _ _).bind fun _ _ => fun h => nomatch h
        | setDependency d =>
          rw [show Op.setDependency d = (OpG.setDependency d : OpG P).op from rfl, stepGR_lift]
          exact (stepG_clear _ _ _).bind fun _ _ => fun h => nomatch h
      revert hcl
      generalize stepGR (Ms j) (sem.soloG Ms j).lift fuel 1 op (h.fetch j) = q'
      intro hcl h2
      cases q' <;> first | exact h2.1 | exact h2.elim (fun e => hcl (by rw [e])) fun e => e rfl

/-- All machines of the layers below `L` have been led there. -/
def LedBelowG (Ms : ι → Machine) (sem : SemS ι P W) (O : ι → Op P → Prop) (layer : ι → Nat) (d : ι → Dep) (base : ι → List (Op P)) (L : Nat)
    (g : Hub ι P W) : Prop := ∀ k, layer k < L → LedG Ms sem O d (base k) k (g.parts k)

theorem LedBelowG.congr {d : ι → Dep} {base : ι → List (Op P)} {L : Nat} (g g' : Hub ι P W)
    (he : ∀ k, layer k < L → g.parts k = g'.parts k) (h : LedBelowG Ms sem O layer d base L g) :
    LedBelowG Ms sem O layer d base L g' := fun k hk => he k hk ▸ h k hk

theorem LedG.step {d : ι → Dep} {base : List (Op P)} {j : ι} {op : Op P} {fuel : Nat} {h : Hub ι P W} {T X : Prop}
    {V : UB → Prop}
    {Φ : Hub ι P W → Prop} {q : Res (SM P (Hub ι P W)) Bool} (hl : LedG Ms sem O d base j (h.parts j))
    (hop : OpOkGR (Ms j) op) (hO : O j op)
    (hq : q.Tracks T X V (Hub.Trail Φ layer j h) (stepGR (Ms j) (sem.soloG Ms j).lift fuel 1 op (h.fetch j))) :
    (q.home j).Out fun g => LedG Ms sem O d (base ++ [op]) j (g.parts j) := by
  obtain ⟨ops, h1, h3, h2⟩ := hl.fetch
  have h4 : ∀ o ∈ ops ++ [op], O j o := fun o ho => by
    rcases List.mem_append.1 ho with ho | ho
    · exact h3 o ho
    · rw [List.mem_singleton.1 ho]
      exact hO
  cases q with
  | ub u => trivial
  | timeout => trivial
  | ok b s =>
    cases hr : stepGR (Ms j) (sem.soloG Ms j).lift fuel 1 op (h.fetch j) <;> rw [hr] at hq <;> first | exact hq.elim | skip
    obtain ⟨rfl, w', rfl, _⟩ := hq
    refine ⟨ops ++ [op], w', h1.append (List.Sublist.refl _), h4, ?_⟩
    have : (s.world.store j s).parts j = s.rebase () := if_pos rfl
    rw [this]
    exact h2.ok hop hr
  | throw x s =>
    cases hr : stepGR (Ms j) (sem.soloG Ms j).lift fuel 1 op (h.fetch j) <;> rw [hr] at hq <;> first | exact hq.elim | skip
    obtain ⟨w', rfl, _⟩ := hq
    refine ⟨ops ++ [op], w', h1.append (List.Sublist.refl _), h4, ?_⟩
    have : (s.world.store j s).parts j = s.rebase () := if_pos rfl
    rw [this]
    exact h2.throw hop hr

/-- Calls lead machines on. -/
theorem stepGS_led (hs : sem.LayeredG Ms layer) (hO : sem.Good True O) (d : ι → Dep) (base : ι → List (Op P)) (fuel : Nat) : ∀ n {L : Nat} {j : ι}
    {op : Op P} {h : Hub ι P W}, layer j < L → OpOkGR (Ms j) op → O j op →
    LedBelowG Ms sem O layer d base L h →
    (stepGS Ms sem fuel n j op h).Out fun g => LedBelowG Ms sem O layer d base L g ∧
      LedG Ms sem O d (base j ++ [op]) j (g.parts j) := by
  intro n
  induction n with
  | zero => intro L j op h _ _ _ _; trivial
  | succ n ih =>
    intro L j op h hj hop hop' hl
    obtain ⟨q, h1, h2⟩ := stepGS_tracks (T := True) (X := False) (V := fun _ => True) (Φ := LedBelowG Ms sem O layer d base (layer j)) (fuel := fuel) (n := n)
      (j := j) hs LedBelowG.congr
      (fun k op g hk hop hop' hg => (ih hk hop hop' hg).imp fun _ h => h.1) (Or.inl trivial)
      (fun _ _ _ _ _ _ _ _ _ => trivial) (fun _ => trivial) hO (.refl _) op (h := h)
      (fun k hk => hl k (Nat.lt_trans hk hj))
    have e1 := stepGS_within hs fuel (n + 1) j op h
    rw [h1] at e1 ⊢
    have e2 := Hub.Trail.home LedBelowG.congr h2
    have e3 := (hl j hj).step hop hop' h2
    refine ((e1.and e2).and e3).imp ?_
    rintro g ⟨⟨f1, f2⟩, f3⟩
    refine ⟨fun k hk => ?_, f3⟩
    by_cases hkj : k = j
    · rw [hkj]
      exact f3.mono (List.sublist_append_left _ _)
    · by_cases hlt : layer k < layer j
      · exact f2 k hlt
      · rw [f1 k hkj (Nat.le_of_not_lt hlt)]
        exact hl k hk

/-! ## The properties -/

theorem RunToGS.led (hs : sem.LayeredG Ms layer) (hO : sem.Good True O) {d : ι → Dep} {ops : List (ι × Op P)} {h : Hub ι P W}
    (hr : RunToGS Ms sem d ops h) (ho : ∀ x ∈ ops, O x.1 x.2) : ∀ i, LedG Ms sem O d (callsOf i ops) i (h.parts i) := by
  have key : ∀ {ops : List (ι × Op P)} {g g' : Hub ι P W} {i : ι} {op : Op P},
      (∀ k, LedG Ms sem O d (callsOf k ops) k (g.parts k)) → g.Within layer i g' →
      LedBelowG Ms sem O layer d (fun k => callsOf k ops) (layer i + 1) g' →
      LedG Ms sem O d (callsOf i ops ++ [op]) i (g'.parts i) →
      ∀ k, LedG Ms sem O d (callsOf k (ops ++ [(i, op)])) k (g'.parts k) := by
    intro ops g g' i op h1 h2 h3 h4 k
    have he : callsOf k (ops ++ [(i, op)]) = callsOf k ops ++ if i = k then [op] else [] := by
      unfold callsOf
      rw [List.filterMap_append]
      congr 1
      by_cases hik : i = k
      · simp [hik]
      · simp [hik]
    rw [he]
    by_cases hik : i = k
    · subst hik
      rw [if_pos rfl]
      exact h4
    · rw [if_neg hik, List.append_nil]
      by_cases hlt : layer k < layer i + 1
      · exact h3 k hlt
      · rw [h2 k (Ne.symm hik) (by omega)]
        exact h1 k
  induction hr with
  | @init h hi => exact fun i => ⟨[], h, List.nil_sublist _, fun _ h => absurd h List.not_mem_nil, .init (constructG_rebase (hi i))⟩
  | @ok h h' ops i op fuel n b hr hop hst ih =>
    have ih := ih fun x hx => ho x (List.mem_append_left _ hx)
    have h1 := stepGS_within hs fuel n i op h
    have h2 := stepGS_led hs hO d (fun k => callsOf k ops) fuel n (Nat.lt_succ_self (layer i)) hop
      (ho (i, op) (List.mem_append_right _ (List.mem_singleton.2 rfl))) (h := h) fun k _ => ih k
    rw [hst] at h1 h2
    exact key ih h1 h2.1 h2.2
  | @throw h h' ops i op fuel n x hr hop hst ih =>
    have ih := ih fun x hx => ho x (List.mem_append_left _ hx)
    have h1 := stepGS_within hs fuel n i op h
    have h2 := stepGS_led hs hO d (fun k => callsOf k ops) fuel n (Nat.lt_succ_self (layer i)) hop
      (ho (i, op) (List.mem_append_right _ (List.mem_singleton.2 rfl))) (h := h) fun k _ => ih k
    rw [hst] at h1 h2
    exact key ih h1 h2.1 h2.2
  | world hr w ih => exact ih ho

theorem RunToGR.plain {M : Machine} {sem : Sem P W} {d : Dep} {ops : List (Op P)} {s : SM P W}
    (h : RunToGR M sem.lift d ops s) : ∃ ops' : List (OpG P), ops'.map OpG.op = ops ∧ RunToG M sem d ops' s := by
  induction h with
  | init h => exact ⟨[], rfl, .init h⟩
  | @ok s s' ops op fuel n b hr hop h ih =>
    obtain ⟨ops', rfl, hr'⟩ := ih
    obtain ⟨o, rfl⟩ := hop.op
    refine ⟨ops' ++ [o], by simp, ?_⟩
    cases n with
    | zero => cases h
    | succ n =>
      rw [stepGR_lift] at h
      cases hq : stepG M sem fuel o s <;> rw [hq] at h <;> cases h
      exact hr'.ok (opOkGR_op.1 hop) hq
  | @throw s s' ops op fuel n x hr hop h ih =>
    obtain ⟨ops', rfl, hr'⟩ := ih
    obtain ⟨o, rfl⟩ := hop.op
    refine ⟨ops' ++ [o], by simp, ?_⟩
    cases n with
    | zero => cases h
    | succ n =>
      rw [stepGR_lift] at h
      cases hq : stepG M sem fuel o s <;> rw [hq] at h <;> cases h
      exact hr'.throw (opOkGR_op.1 hop) hq
  | world hr w ih =>
    obtain ⟨ops', h1, h2⟩ := ih
    exact ⟨ops', h1, h2.world w⟩

/-- C128: in a program whose callbacks only use machines of lower layers, every machine is after every history of
the program as after a history of its own, with callbacks that call nothing; the calls made from outside the
program are among the calls of that history, in the same order. -/
theorem C128_alone (hs : sem.LayeredG Ms layer) {d : ι → Dep} {ops : List (ι × Op P)} {h : Hub ι P W}
    (hr : RunToGS Ms sem d ops h) (i : ι) : ∃ ops' : List (OpG P), (callsOf i ops).Sublist (ops'.map OpG.op) ∧
      RunToG (Ms i) (sem.soloG Ms i) (d i) ops' (h.fetch i) := by
  obtain ⟨ops', h1, _, h2⟩ := (hr.led hs hs.free (fun _ _ => trivial) i).fetch
  obtain ⟨ops'', rfl, h3⟩ := h2.plain
  exact ⟨ops'', h1, h3⟩

/-- C128, calls: a call does to the machine, to the machines of lower layers and to the user's world what the same
call does to the machine on its own. -/
theorem C128_step (hs : sem.LayeredG Ms layer) (fuel n : Nat) (i : ι) (op : OpG P) (h : Hub ι P W) :
    (stepGS Ms sem fuel n i op.op h).SeenAsG layer i (stepG (Ms i) (sem.soloG Ms i) fuel op (h.fetch i)) := by
  cases n with
  | zero => trivial
  | succ n =>
    obtain ⟨q, h1, h2⟩ := stepGS_tracks (T := True) (X := False) (V := fun _ => True) (Φ := fun _ => True) (fuel := fuel) (n := n) (j := i) hs
      (fun _ _ _ h => h) (fun k op g _ _ _ _ => by cases stepGS Ms sem fuel n k op g <;> trivial) (Or.inl trivial)
      (fun _ _ _ _ _ _ _ _ _ => trivial) (fun _ => trivial) hs.free (.refl _) op.op
      (h := h) trivial
    rw [h1]
    have key : ∀ {s : SM P (Hub ι P W)} {w' : Hub ι P W}, Hub.Trail (fun _ => True) layer i h s.world w' →
        (s.world.store i s).parts i = (s.rebase w').rebase () ∧ (s.world.store i s).user = w'.user ∧
        ∀ k, layer k < layer i → (s.world.store i s).parts k = w'.parts k := by
      rintro s w' ⟨g1, g2, _, _⟩
      refine ⟨if_pos rfl, g1, fun k hk => ?_⟩
      have hki : k ≠ i := fun he => by rw [he] at hk; exact Nat.lt_irrefl _ hk
      exact (if_neg hki).trans (g2 k hk)
    revert h2
    rw [stepGR_lift fuel 0 op]
    generalize stepG (Ms i) (sem.soloG Ms i) fuel op (h.fetch i) = q'
    intro h2
    cases q <;> cases q' <;> first | exact h2.elim | exact h2.1.elim | trivial | skip
    · obtain ⟨rfl, w', rfl, hw⟩ := h2
      exact key hw
    · obtain ⟨w', rfl, hw⟩ := h2
      exact key hw

/-- C128, the others: a call changes no other machine of the same layer, and none of a higher one. -/
theorem C128_others (hs : sem.LayeredG Ms layer) (fuel n : Nat) (i : ι) (op : Op P) (h : Hub ι P W) {k : ι}
    (hk : k ≠ i) (hl : layer i ≤ layer k) :
    (stepGS Ms sem fuel n i op h).Out fun g => g.parts k = h.parts k :=
  (stepGS_within hs fuel n i op h).imp fun _ hg => hg k hk hl

/-- C128, lower layers: what a call does to a machine, to the machines of lower layers and to the user's world does
not depend on the other machines. -/
theorem C128_lower (hs : sem.LayeredG Ms layer) (fuel n : Nat) (i : ι) (op : Op P) {h h' : Hub ι P W}
    (hu : h.user = h'.user) (hp : ∀ k, layer k ≤ layer i → h.parts k = h'.parts k) :
    (stepGS Ms sem fuel n i op h).Near layer (layer i + 1) i h h' (stepGS Ms sem fuel n i op h') :=
  stepGS_near hs fuel n op (Nat.lt_succ_self _) ⟨hu, fun k hk => hp k (Nat.le_of_lt_succ hk)⟩

/-- C128, the bounds: a call that ends within some number of anonymous rounds and some depth of nesting ends the
same with more of both. -/
theorem C128_bounds {fuel fuel' n n' : Nat} (hf : fuel ≤ fuel') (hn : n ≤ n') (i : ι) (op : Op P) (h : Hub ι P W)
    (hx : stepGS Ms sem fuel n i op h ≠ .timeout) : stepGS Ms sem fuel' n' i op h = stepGS Ms sem fuel n i op h :=
  ((stepGS_upTo hf hn i op h).resolve_left hx).symm

/-- C128, ends: in a program whose callbacks only use machines of lower layers, every call ends if the calls of
every machine on its own do; calls are nested no deeper than there are layers. -/
theorem C128_ends (hs : sem.LayeredG Ms layer) {d : ι → Dep} {fuel : Nat}
    (hend : ∀ i ops s op, RunToG (Ms i) (sem.soloG Ms i) (d i) ops s → OpOkG (Ms i) op →
      stepG (Ms i) (sem.soloG Ms i) fuel op s ≠ .timeout)
    {ops : List (ι × Op P)} {h : Hub ι P W} (hr : RunToGS Ms sem d ops h) {i : ι} {op : Op P} (hop : OpOkGR (Ms i) op)
    {n : Nat} (hn : layer i < n) : stepGS Ms sem fuel n i op h ≠ .timeout := by
  have key : ∀ n (j : ι) (op : Op P) (h : Hub ι P W), layer j < n → OpOkGR (Ms j) op →
      LedBelowG Ms sem (fun _ _ => True) layer d (fun _ => []) (layer j) h → LedG Ms sem (fun _ _ => True) d [] j (h.parts j) →
      stepGS Ms sem fuel n j op h ≠ .timeout := by
    intro n
    induction n with
    | zero => intro j op h hj; exact absurd hj (Nat.not_lt_zero _)
    | succ n ih =>
      intro j op h hj hop hl hlj
      obtain ⟨q, h1, h2⟩ := stepGS_tracks (T := False) (X := False) (V := fun _ => True) (Φ := LedBelowG Ms sem (fun _ _ => True) layer d (fun _ => []) (layer j))
        (fuel := fuel) (n := n) (j := j) hs LedBelowG.congr
        (fun k op g hk hop _ hg => (stepGS_led hs hs.free d _ fuel n hk hop trivial hg).imp fun _ h => h.1)
        (Or.inr fun k op g hk hop _ hg => ih k op g (by omega) hop (fun i hi => hg i (Nat.lt_trans hi hk)) (hg k hk))
        (fun _ _ _ _ _ _ _ _ _ => trivial) (fun _ => trivial) hs.free (.refl _) op (h := h) hl
      obtain ⟨ops', _, _, hr'⟩ := hlj.fetch
      obtain ⟨ops'', _, hr''⟩ := hr'.plain
      obtain ⟨o, rfl⟩ := hop.op
      have hne := hend j _ _ o hr'' (opOkGR_op.1 hop)
      rw [h1]
      intro ht
      cases q with
      | ok b s => cases ht
      | throw x s => cases ht
      | ub u => cases ht
      | timeout =>
        revert hne h2
        rw [stepGR_lift fuel 0 o]
        generalize stepG (Ms j) (sem.soloG Ms j) fuel o (h.fetch j) = q'
        intro hne h2
        cases q' <;> first | exact h2.elim | exact hne rfl
  have hl := hr.led hs hs.free (fun _ _ => trivial)
  exact key n i op h hn hop (fun k _ => (hl k).mono (List.nil_sublist _)) ((hl i).mono (List.nil_sublist _))

/-- C128, acyclic rows: if in every machine the anonymous rows are acyclic, every call ends, whatever the callbacks
do and whatever is deferred. -/
theorem C128_acyclic (hs : sem.LayeredG Ms layer) (hM : ∀ i, (Ms i).RegularG) {ρ : ι → Name × StTy → Nat}
    (hρ : ∀ i, AcyclicG (Ms i) (ρ i)) {B : ι → Nat}
    (hB : ∀ i, ∀ p ∈ (Ms i).composites, ∀ st ∈ (Ms i).states, ρ i (p, st) ≤ B i) {fuel : Nat}
    (hf : ∀ i, (Ms i).slotCount * B i < fuel) {d : ι → Dep} {ops : List (ι × Op P)} {h : Hub ι P W}
    (hr : RunToGS Ms sem d ops h) {i : ι} {op : Op P} (hop : OpOkGR (Ms i) op) {n : Nat} (hn : layer i < n) :
    stepGS Ms sem fuel n i op h ≠ .timeout :=
  C128_ends hs (fun i _ _ _ h hop => C102_acyclic (hM i) (hρ i) (hB i) h (slotCount_eq (M := Ms i) ▸ hf i) hop) hr hop hn

end

/-! ## Examples -/

namespace Ex

theorem orders_allG (i : Bool) (c : Nat) : ∀ x ∈ orders i c, rankOf x.1 < rankOf i ∧ OpOkGR (crew x.1) x.2 := by
  have hok : ∀ n < 2, decide (ev n ∈ chain.eventIdsG) = true := by decide +kernel
  intro x hx
  unfold orders at hx
  split at hx
  · rename_i h
    rw [List.mem_singleton.1 hx, h.1]
    exact ⟨by decide, (of_decide_eq_true (hok 0 (by decide)) : ev 0 ∈ chain.eventIdsG)⟩
  · split at hx
    · rename_i h
      rw [List.mem_singleton.1 hx, h.1]
      exact ⟨by decide, (of_decide_eq_true (hok 1 (by decide)) : ev 1 ∈ chain.eventIdsG)⟩
    · cases hx

theorem orders_layeredG : (semS true orders orders).LayeredG crew rankOf :=
  ⟨fun i g _ _ _ => makesS_good (orders_allG i g), fun i c _ _ _ => makesS_good (orders_allG i c),
    fun i c _ _ _ _ _ => makesS_good (orders_allG i c)⟩

/-- C128 applies: event 0 of the first machine has the second go through its anonymous rows and back, and the
members of both are such as plain callbacks could have left. -/
example : ∃ h, RunToGS crew (semS true orders orders) (fun _ => 7) [(false, .process (ev 0) 1)] h ∧
    (h.parts true).log.length = 4 ∧ h.user = [100, 5, 6, 7, 1, 20] ∧
    ∀ i, ∃ ops' : List (OpG Nat), (callsOf i [(false, .process (ev 0) 1)]).Sublist (ops'.map OpG.op) ∧
      RunToG (crew i) ((semS true orders orders).soloG crew i) 7 ops' (h.fetch i) := by
  obtain ⟨h, hr, hs⟩ := exists_runGS crew (semS true orders orders) (fuel := 5) (n := 5) (d := fun _ => 7) (w := [])
    (ops := [(false, .process (ev 0) 1)])
    (f := fun h => (h.parts true).log.length == 4 && h.user == [100, 5, 6, 7, 1, 20]) (by decide +kernel)
  simp only [Bool.and_eq_true, beq_iff_eq] at hs
  exact ⟨h, hr, hs.1, hs.2, fun i => C128_alone orders_layeredG hr i⟩

/-- Every call of that program ends within three rounds, nested at most twice. -/
example {d : Bool → Dep} {ops : List (Bool × Op Nat)} {h : Hub Bool Nat (List Nat)}
    (hr : RunToGS crew (semS true orders orders) d ops h) {i : Bool} {op : Op Nat} (hop : OpOkGR (crew i) op) :
    stepGS crew (semS true orders orders) 3 2 i op h ≠ .timeout := by
  refine C128_acyclic orders_layeredG (ρ := fun i => if i then chainRank else fun _ => 0)
    (B := fun i => if i then 2 else 0) ?_ ?_ ?_ ?_ hr hop (by cases i <;> decide)
  · intro i; cases i
    · exact hop_regularG
    · exact chain_regularG
  · intro i; cases i
    · exact acyclicG_of_none (by decide +kernel)
    · exact chain_acyclicG
  · intro i; cases i
    · exact fun _ _ _ _ => Nat.le_refl _
    · intro p _ st _
      show chainRank (p, st) ≤ 2
      unfold chainRank; split <;> (try split) <;> decide
  · decide +kernel

end Ex
end Hsm
