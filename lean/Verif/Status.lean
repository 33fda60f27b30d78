import Verif.PropsApi

/-!
# The text of `status()` (C44)
-/

namespace Hsm

/-! ## Model -/

/-- A decimal digit. (part of `<<` in sm.h:161-164) -/
def digit (n : Nat) : Char := Char.ofNat (48 + n % 10)

/-- `operator<<` for `std::size_t` and `std::uint64_t` with default formatting. (sm.h:161-164) -/
def decimal (n : Nat) : List Char :=
  if n < 10 then [digit n] else decimal (n / 10) ++ [digit n]
termination_by n

/-- One record of the text (sm.h:161-164).  `Region` is `std::uint8_t`, so `operator<<` writes
it as a character. -/
def StatusRec.text (x : StatusRec) : List Char :=
  "[".toList ++ [Char.ofNat (x.region % 256)] ++ "] ".toList
    ++ "combined: ".toList ++ decimal x.combined ++ " ".toList
    ++ "parent: ".toList ++ decimal x.parent ++ " ".toList
    ++ "state: ".toList ++ decimal x.state

/-- `status()` (sm.h:156-167): the records, one after the other. -/
def statusText {P W : Type} (M : Machine) (s : SM P W) : Res (SM P W) (List Char) :=
  (status M s).bind fun l s => .ok (l.flatMap StatusRec.text) s

/-! ## Specification -/

/-- The decimal notation of `n`, by its value: only digits, at least one, and read from left
to right they give `n`. -/
structure Denotes (cs : List Char) (n : Nat) : Prop where
  nonempty : cs ≠ []
  digits : ∀ c ∈ cs, '0' ≤ c ∧ c ≤ '9'
  value : cs.foldl (fun v c => 10 * v + (c.toNat - 48)) 0 = n

/-- The text of a record, its numbers in decimal notation. -/
def IsRecord (cs : List Char) (c : Char) (combined parent state : Nat) : Prop :=
  ∃ x y z, Denotes x combined ∧ Denotes y parent ∧ Denotes z state ∧
    cs = '[' :: c :: "] combined: ".toList ++ x ++ " parent: ".toList ++ y ++ " state: ".toList ++ z

/-! ## Proofs -/

theorem digit_toNat (n : Nat) : (digit n).toNat = 48 + n % 10 := by
  have h : n % 10 < 10 := Nat.mod_lt _ (by decide)
  unfold digit
  generalize n % 10 = k at h
  revert k
  decide

theorem digit_range (n : Nat) : '0' ≤ digit n ∧ digit n ≤ '9' := by
  have h : n % 10 < 10 := Nat.mod_lt _ (by decide)
  unfold digit
  generalize n % 10 = k at h
  revert k
  decide

theorem decimal_denotes (n : Nat) : Denotes (decimal n) n := by
  induction n using Nat.strongRecOn with
  | _ n ih =>
    unfold decimal
    by_cases h : n < 10
    · rw [if_pos h]
      refine ⟨by simp, ?_, ?_⟩
      · intro c hc; rw [List.mem_singleton.1 hc]; exact digit_range n
      · simp [digit_toNat, Nat.mod_eq_of_lt h]
    · rw [if_neg h]
      obtain ⟨h1, h2, h3⟩ := ih (n / 10) (by omega)
      refine ⟨by simp, ?_, ?_⟩
      · intro c hc
        rcases List.mem_append.1 hc with hc | hc
        · exact h2 c hc
        · rw [List.mem_singleton.1 hc]; exact digit_range n
      · rw [List.foldl_append, h3]
        simp only [List.foldl_cons, List.foldl_nil, digit_toNat]
        omega

/-- Digits end where something else begins. -/
theorem digits_split {x x' y y' : List Char} (hx : ∀ c ∈ x, '0' ≤ c ∧ c ≤ '9')
    (hx' : ∀ c ∈ x', '0' ≤ c ∧ c ≤ '9') (hy : ∀ c ∈ y.head?, ¬ ('0' ≤ c ∧ c ≤ '9'))
    (hy' : ∀ c ∈ y'.head?, ¬ ('0' ≤ c ∧ c ≤ '9')) (h : x ++ y = x' ++ y') : x = x' ∧ y = y' := by
  induction x generalizing x' with
  | nil =>
    cases x' with
    | nil => exact ⟨rfl, h⟩
    | cons c x' =>
      rw [List.nil_append] at h
      subst h
      exact absurd (hx' c List.mem_cons_self) (hy c rfl)
  | cons c x ih =>
    cases x' with
    | nil =>
      rw [List.nil_append] at h
      subst h
      exact absurd (hx c List.mem_cons_self) (hy' c rfl)
    | cons c' x' =>
      simp only [List.cons_append, List.cons.injEq] at h
      obtain ⟨rfl, h⟩ := h
      obtain ⟨rfl, rfl⟩ := ih (fun c hc => hx c (List.mem_cons_of_mem _ hc))
        (fun c hc => hx' c (List.mem_cons_of_mem _ hc)) h
      exact ⟨rfl, rfl⟩

theorem decimal_split {a b : Nat} {y y' : List Char} (hy : ∀ c ∈ y.head?, ¬ ('0' ≤ c ∧ c ≤ '9'))
    (hy' : ∀ c ∈ y'.head?, ¬ ('0' ≤ c ∧ c ≤ '9')) (h : decimal a ++ y = decimal b ++ y') :
    a = b ∧ y = y' := by
  obtain ⟨h1, h2⟩ := digits_split (decimal_denotes a).digits (decimal_denotes b).digits hy hy' h
  refine ⟨?_, h2⟩
  rw [← (decimal_denotes a).value, h1, (decimal_denotes b).value]

theorem StatusRec.text_eq (x : StatusRec) : x.text =
    '[' :: Char.ofNat (x.region % 256) :: ("] combined: ".toList ++ (decimal x.combined ++
      (" parent: ".toList ++ (decimal x.parent ++ (" state: ".toList ++ decimal x.state))))) := by
  unfold StatusRec.text
  simp

theorem StatusRec.isRecord (x : StatusRec) :
    IsRecord x.text (Char.ofNat (x.region % 256)) x.combined x.parent x.state :=
  ⟨_, _, _, decimal_denotes _, decimal_denotes _, decimal_denotes _, by
    rw [x.text_eq]; simp⟩

/-- Records are recognised in the text. -/
theorem StatusRec.text_split {x x' : StatusRec} {y y' : List Char} (hy : ∀ c ∈ y.head?, c = '[')
    (hy' : ∀ c ∈ y'.head?, c = '[') (h : x.text ++ y = x'.text ++ y') :
    x.combined = x'.combined ∧ x.parent = x'.parent ∧ x.state = x'.state ∧ y = y' := by
  rw [x.text_eq, x'.text_eq] at h
  simp only [List.cons_append, List.append_assoc, List.cons.injEq, true_and] at h
  obtain ⟨_, h⟩ := h
  have h := List.append_cancel_left h
  obtain ⟨h1, h⟩ := decimal_split (by simp) (by simp) h
  have h := List.append_cancel_left h
  obtain ⟨h2, h⟩ := decimal_split (by simp) (by simp) h
  have h := List.append_cancel_left h
  obtain ⟨h3, h⟩ := decimal_split (fun c hc => by rw [hy c hc]; decide)
    (fun c hc => by rw [hy' c hc]; decide) h
  exact ⟨h1, h2, h3, h⟩

theorem text_head (l : List StatusRec) : ∀ c ∈ (l.flatMap StatusRec.text).head?, c = '[' := by
  cases l with
  | nil => simp
  | cons x l =>
    intro c hc
    rw [List.flatMap_cons, x.text_eq] at hc
    simp at hc
    exact hc.symm

theorem text_inj {l l' : List StatusRec} (h : l.flatMap StatusRec.text = l'.flatMap StatusRec.text) :
    l.map (fun x => (x.combined, x.parent, x.state)) =
      l'.map (fun x => (x.combined, x.parent, x.state)) := by
  induction l generalizing l' with
  | nil =>
    cases l' with
    | nil => rfl
    | cons x l => rw [List.flatMap_cons, x.text_eq] at h; cases h
  | cons x l ih =>
    cases l' with
    | nil => rw [List.flatMap_cons, x.text_eq] at h; cases h
    | cons x' l' =>
      rw [List.flatMap_cons, List.flatMap_cons] at h
      obtain ⟨h1, h2, h3, h4⟩ := StatusRec.text_split (text_head l) (text_head l') h
      simp [h1, h2, h3, ih h4]

section
variable {P W : Type} {M : Machine} {sem : Sem P W}

/-- The records of `status` for given regions. -/
theorem statusLoop_ok {rs : List Nat} {s s' : SM P W} {l : List StatusRec}
    (h : statusLoop M rs s = .ok l s') : s' = s ∧ l.map StatusRec.region = rs ∧
      ∀ x ∈ l, s.cur[x.region]? = some (some x.combined) ∧
        x.state = x.combined % M.nStates ∧
        ∃ c, s.cur[0]? = some (some c) ∧ x.parent = c / M.nStates := by
  induction rs generalizing s s' l with
  | nil => cases h; exact ⟨rfl, rfl, by simp⟩
  | cons r rs ih =>
    unfold statusLoop at h
    obtain ⟨c, s1, h1, h⟩ := Res.bind_ok.1 h
    obtain ⟨p, s2, h2, h⟩ := Res.bind_ok.1 h
    obtain ⟨t, s3, h3, h⟩ := Res.bind_ok.1 h
    obtain ⟨l', s4, h4, h⟩ := Res.bind_ok.1 h
    cases h
    have e1 : s1 = s ∧ s.cur[r]? = some (some c) := by
      unfold readCur at h1
      split at h1
      · cases h1
      · cases h1
      · rename_i hc; cases h1; exact ⟨rfl, hc⟩
    obtain ⟨rfl, hc⟩ := e1
    have e2 : s2 = s1 ∧ ∃ c, s1.cur[0]? = some (some c) ∧ p = c / M.nStates := by
      unfold currentParent at h2
      obtain ⟨c0, s0, h20, h2⟩ := Res.bind_ok.1 h2
      cases h2
      unfold readCur at h20
      split at h20
      · cases h20
      · cases h20
      · rename_i hc; cases h20; exact ⟨rfl, _, hc, rfl⟩
    obtain ⟨rfl, hp⟩ := e2
    have e3 : s3 = s2 ∧ t = c % M.nStates := by
      unfold currentState atCur at h3
      rw [hc] at h3
      cases h3
      exact ⟨rfl, rfl⟩
    obtain ⟨rfl, rfl⟩ := e3
    obtain ⟨rfl, h5, h6⟩ := ih h4
    refine ⟨rfl, by simp [h5], ?_⟩
    intro x hx
    rcases List.mem_cons.1 hx with rfl | hx
    · exact ⟨hc, rfl, hp⟩
    · exact h6 x hx

/-- C44: `status()` changes nothing; its text is one record after the other, one per active
region in order, the `i`-th with the combined and state number of region `i` (and the
parent number of region 0); and equal texts mean that equally many regions are active and at
the same locations. -/
theorem C44_status {s s' : SM P W} {cs : List Char} (h : statusText M s = .ok cs s') :
    s' = s ∧
    (∃ rs : List (List Char), cs = rs.flatten ∧ rs.length = activeRegions M s ∧
      ∀ i r, rs[i]? = some r → ∃ c c0, s.cur[i]? = some (some c) ∧ s.cur[0]? = some (some c0) ∧
        IsRecord r (Char.ofNat (i % 256)) c (c0 / M.states.length) (c % M.states.length)) ∧
    (∀ t t' : SM P W, statusText M t = .ok cs t' → activeRegions M t = activeRegions M s ∧
      ∀ i, i < activeRegions M s → t.cur[i]? = s.cur[i]?) := by
  have key : ∀ {s s' : SM P W}, statusText M s = .ok cs s' → s' = s ∧ ∃ l : List StatusRec,
      cs = l.flatMap StatusRec.text ∧ l.map StatusRec.region = List.range (activeRegions M s) ∧
      ∀ x ∈ l, s.cur[x.region]? = some (some x.combined) ∧
        x.state = x.combined % M.nStates ∧
        ∃ c, s.cur[0]? = some (some c) ∧ x.parent = c / M.nStates := by
    intro s s' h
    obtain ⟨l, s1, h1, h⟩ := Res.bind_ok.1 h
    cases h
    obtain ⟨rfl, h2, h3⟩ := statusLoop_ok h1
    exact ⟨rfl, l, rfl, by rw [← currentRegions_eq]; exact h2, h3⟩
  have hns : M.states.length = M.nStates := by rw [Machine.states_eq]; rfl
  obtain ⟨h0, l, rfl, hl, hx⟩ := key h
  have reg : ∀ {l : List StatusRec} {n : Nat} (hl : l.map StatusRec.region = List.range n) {i : Nat}
      {x : StatusRec}, l[i]? = some x → x.region = i := by
    intro l n hl i x hi
    have h1 : (l.map StatusRec.region)[i]? = some x.region := by rw [List.getElem?_map, hi]; rfl
    rw [hl] at h1
    obtain ⟨hlt, h1⟩ := List.getElem?_eq_some_iff.1 h1
    rw [List.getElem_range] at h1
    exact h1.symm
  refine ⟨h0, ⟨l.map StatusRec.text, by rw [List.flatMap_def], ?_, ?_⟩, ?_⟩
  · have := congrArg List.length hl
    simpa using this
  · intro i r hi
    rw [List.getElem?_map, Option.map_eq_some_iff] at hi
    obtain ⟨x, hi, rfl⟩ := hi
    have hr := reg hl hi
    obtain ⟨h1, h2, c0, h3, h4⟩ := hx x (List.mem_of_getElem? hi)
    refine ⟨x.combined, c0, hr ▸ h1, h3, ?_⟩
    rw [hns, ← h4, ← h2, ← hr]
    exact x.isRecord
  · intro t t' ht
    obtain ⟨_, l', he, hl', hx'⟩ := key ht
    have hinj := text_inj he
    have hlen : l.length = l'.length := by simpa using congrArg List.length hinj
    have n1 : l.length = activeRegions M s := by simpa using congrArg List.length hl
    have n2 : l'.length = activeRegions M t := by simpa using congrArg List.length hl'
    refine ⟨by omega, ?_⟩
    intro i hi
    have i1 : i < l.length := by omega
    have i2 : i < l'.length := by omega
    have e1 := List.getElem?_eq_getElem i1
    have e2 := List.getElem?_eq_getElem i2
    have r1 := reg hl e1
    have r2 := reg hl' e2
    have c1 := (hx _ (List.mem_of_getElem? e1)).1
    have c2 := (hx' _ (List.mem_of_getElem? e2)).1
    rw [r1] at c1
    rw [r2] at c2
    rw [c1, c2]
    have := congrArg (fun m => m[i]?) hinj
    simp only [List.getElem?_map, e1, e2, Option.map_some, Option.some.injEq, Prod.mk.injEq] at this
    rw [this.1]

/-- C44: with the numbers in the text the locations are known: if the text is that of a
machine with region `i` at `(p, st)`, every machine of the same type with this text has its
region `i` there. -/
theorem C44_location (hM : M.Regular) {s s' t t' : SM P W} {cs : List Char}
    (hs : statusText M s = .ok cs s') (ht : statusText M t = .ok cs t') {i : Nat} {p q : Name}
    {st st' : StTy} (hi : i < activeRegions M s) (h1 : At M s i p st) (h2 : At M t i q st') :
    q = p ∧ st' = st := by
  have := ((C44_status hs).2.2 t t' ht).2 i hi
  rw [h1.2.2, h2.2.2] at this
  simp only [Option.some.injEq] at this
  have := hM.comb_inj h1.1 h1.2.1 this
  simpa using this

/-- The stronger claim, that the record of region `i` has the parent number of region `i`. -/
def C44_parent_claim : Prop :=
  ∀ (M : Machine) (sem : Sem Nat (List Nat)) (d : Dep) (ops : List (Op Nat))
    (s s' : SM Nat (List Nat)) (l : List StatusRec), M.Regular → M.Scoped → RunTo M sem d ops s →
    status M s = .ok l s' → ∀ x ∈ l, x.parent = x.combined / M.states.length

/-- It fails: `status` prints `currentParentState()`, which is that of region 0, for every
region. -/
theorem C44_parent_refuted : ¬ C44_parent_claim := by
  intro hall
  have hrun : (Ex.run Ex.orth (Ex.sem fun _ => true) 5 7 [] [.process (Ex.ev 2) 1]).any (fun s =>
      match status Ex.orth s with
      | .ok l _ => l.any fun x => x.parent != x.combined / Ex.orth.states.length
      | _ => false) = true := by decide +kernel
  obtain ⟨s, hr, hs⟩ := Ex.exists_run _ _ hrun
  split at hs
  · rename_i l s' hl
    obtain ⟨x, hx, hne⟩ := List.any_eq_true.1 hs
    rw [hall _ _ _ _ s s' l Ex.orth_regular Ex.orth_scoped hr hl x hx] at hne
    simp at hne
  · cases hs

end

/-- The text for two regions. -/
example : (Ex.run Ex.orth (Ex.sem fun _ => true) 5 7 [] [.process (Ex.ev 0) 1]).any (fun s =>
    match statusText Ex.orth s with
    | .ok cs _ => cs == "[\x00] combined: 0 parent: 0 state: 0[\x01] combined: 3 parent: 0 state: 3".toList
    | _ => false) = true := by decide +kernel

end Hsm
