import Verif.Closures
/-!
# Tree expressions with closures do what their specification says

`ELaw I s T K E`: the masks and cursors of `I` obey the contract (`Lawful`), and the four data methods
are, as functions of the closures' state, those of `E`. One lemma per combinator.
-/
namespace Hibit

/-! ## The monad -/

@[simp] theorem EM.bind_assoc {σ α β γ : Type} (m : EM σ α) (f : α → EM σ β) (g : β → EM σ γ) :
    (m >>= f) >>= g = m >>= fun a => f a >>= g := by
  funext z
  show ((m z >>= _) >>= _ : R _) = (m z >>= _ : R _)
  cases m z with
  | error e => rfl
  | ok r =>
    obtain ⟨o, z⟩ := r
    cases o <;> rfl

@[simp] theorem EM.pure_bind {σ α β : Type} (a : α) (f : α → EM σ β) : (pure a : EM σ α) >>= f = f a := by
  funext z; rfl

@[simp] theorem EM.bind_pure {σ α : Type} (m : EM σ α) : m >>= pure = m := by
  funext z
  show ((m z >>= _) : R _) = m z
  cases m z with
  | error e => rfl
  | ok r =>
    obtain ⟨o, z⟩ := r
    cases o <;> rfl

@[simp] theorem EM.lift_ok {σ α : Type} (a : α) : (EM.lift (.ok a) : EM σ α) = pure a := rfl

theorem EM.bind_congr {σ α β : Type} {m : EM σ α} {f g : α → EM σ β} (h : ∀ a, f a = g a) :
    m >>= f = m >>= g := congrArg _ (funext h)

theorem either_eq {σ δ0 δ1 : Type} (a : Option δ0) (b : Option δ1) :
    (if a.isNone && b.isNone then (pure none : EM σ _) else pure (some (a, b))) = pure (eitherOf a b) := by
  cases a <;> cases b <;> rfl

theorem both_eq {δ0 δ1 : Type} (a : Option δ0) (b : Option δ1) : bothU a b = .ok (bothOf a b) := by
  cases a <;> cases b <;> rfl

/-! ## The contract -/

/-- The tree `s` with closures does what `E` says. -/
structure ELaw {S C σ δ : Type} (I : EImpl S C σ δ) (s : S) (T : TreeSpec Unit) (K : CursorRel C)
    (E : ESpec σ δ) : Prop where
  base : Lawful I.base s T K
  present_eq : ∀ p, ValidPath (width I.base.N) p → p.length = I.base.D →
    E.present (unpath (width I.base.N) p) = (T.content p).isSome
  data_eq : ∀ p, ValidPath (width I.base.N) p → p.length = I.base.D →
    I.data s (unpath (width I.base.N) p) p = E.get (unpath (width I.base.N) p)
  dataU_eq : ∀ p, ValidPath (width I.base.N) p → p.length = I.base.D → (T.content p).isSome = true →
    I.dataU s (unpath (width I.base.N) p) p = E.getU (unpath (width I.base.N) p)
  curDataU_eq : ∀ c p i, K.pos c p → ValidPath (width I.base.N) p → i < width I.base.N →
    p.length + 1 = I.base.D → (T.content (p ++ [i])).isSome = true →
    I.curDataU c s i = E.curU (unpath (width I.base.N) (p ++ [i]))

/-- Also with the checked cursor data access. -/
structure ELawC {S C σ δ : Type} (I : EImpl S C σ δ) (s : S) (T : TreeSpec Unit) (K : CursorRel C)
    (E : ESpec σ δ) : Prop extends ELaw I s T K E where
  baseC : LawfulC I.base s T K
  curData_eq : ∀ c p i, K.posC c p → ValidPath (width I.base.N) p → i < width I.base.N →
    p.length + 1 = I.base.D → I.curData c s i = E.cur (unpath (width I.base.N) (p ++ [i]))

section
variable {S C σ δ : Type}

theorem leaf_elaw {I : Impl S C δ} {s : S} {T : TreeSpec δ} {K : CursorRel C} {M : Nat → Option δ}
    (L : Lawful I s T K)
    (hc : ∀ i, i < width I.N ^ I.D → T.content (path (width I.N) I.D i) = M i) :
    ELaw (eleaf (σ := σ) I) s (mapSpec T fun _ => ()) K (leafE M) := by
  refine ⟨map_lawful (fun _ => ()) L, ?_, ?_, ?_, ?_⟩
  · intro p hp hl
    have hp : ValidPath (width I.N) p := hp
    have hl : p.length = I.D := hl
    show (M (unpath (width I.N) p)).isSome = ((T.content p).map _).isSome
    rw [content_of hc hp hl]; simp [eleaf, mapImpl]
  · intro p hp hl
    have hp : ValidPath (width I.N) p := hp
    have hl : p.length = I.D := hl
    show EM.lift (I.data s (unpath (width I.N) p) p) = (leafE M).get (unpath (width I.N) p)
    rw [L.data_eq p hp hl, content_of hc hp hl]; rfl
  · intro p hp hl h
    have hp : ValidPath (width I.N) p := hp
    have hl : p.length = I.D := hl
    have h : ((T.content p).map _).isSome = true := h
    show EM.lift (I.dataU s (unpath (width I.N) p) p) = EM.lift (unwrapU (M (unpath (width I.N) p)))
    cases hd : T.content p with
    | none => rw [hd] at h; simp at h
    | some d =>
      rw [L.dataU_eq p d hp hl hd]
      rw [content_of hc hp hl] at hd
      show _ = EM.lift (unwrapU (M (unpath (width I.N) p)))
      rw [hd]; rfl
  · intro c p i hpos hp hi hl h
    have hp : ValidPath (width I.N) p := hp
    have hi : i < width I.N := hi
    have hl : p.length + 1 = I.D := hl
    have h : ((T.content (p ++ [i])).map _).isSome = true := h
    show EM.lift (I.curDataU c s i) = EM.lift (unwrapU (M _))
    cases hd : T.content (p ++ [i]) with
    | none => rw [hd] at h; simp at h
    | some d =>
      rw [L.curDataU_eq c p i d hpos hp hi hl hd]
      rw [content_of hc (hp.append hi) (by simpa using hl)] at hd
      show _ = EM.lift (unwrapU (M (unpath (width I.N) (p ++ [i]))))
      rw [hd]; rfl

theorem leaf_elawC {I : Impl S C δ} {s : S} {T : TreeSpec δ} {K : CursorRel C} {M : Nat → Option δ}
    (L : LawfulC I s T K)
    (hc : ∀ i, i < width I.N ^ I.D → T.content (path (width I.N) I.D i) = M i) :
    ELawC (eleaf (σ := σ) I) s (mapSpec T fun _ => ()) K (leafE M) := by
  refine ⟨leaf_elaw L.toLawful hc, map_lawfulC (fun _ => ()) L, ?_⟩
  intro c p i hpos hp hi hl
  have hp : ValidPath (width I.N) p := hp
  have hi : i < width I.N := hi
  have hl : p.length + 1 = I.D := hl
  show EM.lift (I.curData c s i) = pure (M (unpath (width I.N) (p ++ [i])))
  rw [L.curData_eq c p i hpos hp hi hl, content_of hc (hp.append hi) (by simpa using hl)]
  rfl

variable {I : EImpl S C σ δ} {s : S} {T : TreeSpec Unit} {K : CursorRel C} {E : ESpec σ δ}

theorem map_elaw {ε : Type} (f : δ → EM σ ε) (L : ELaw I s T K E) : ELaw (emap I f) s T K (mapE E f) := by
  refine ⟨L.base, L.present_eq, ?_, ?_, ?_⟩
  · intro p hp hl
    show I.data s (unpath (width I.base.N) p) p >>= _ = E.get (unpath (width I.base.N) p) >>= _
    rw [← L.data_eq p hp hl]
    refine EM.bind_congr fun o => ?_
    cases o <;> rfl
  · intro p hp hl h
    show I.dataU s (unpath (width I.base.N) p) p >>= _ = E.getU (unpath (width I.base.N) p) >>= _
    rw [← L.dataU_eq p hp hl h]
  · intro c p i hpos hp hi hl h
    show I.curDataU c s i >>= _ = E.curU (unpath (width I.base.N) (p ++ [i])) >>= _
    rw [L.curDataU_eq c p i hpos hp hi hl h]

theorem map_elawC {ε : Type} (f : δ → EM σ ε) (L : ELawC I s T K E) :
    ELawC (emap I f) s T K (mapE E f) := by
  refine ⟨map_elaw f L.toELaw, L.baseC, ?_⟩
  intro c p i hpos hp hi hl
  show I.curData c s i >>= _ = E.cur (unpath (width I.base.N) (p ++ [i])) >>= _
  rw [L.curData_eq c p i hpos hp hi hl]
  refine EM.bind_congr fun o => ?_
  cases o <;> rfl

theorem fold_elaw {β : Type} {I : EImpl S C σ (Strm σ δ)} {E : ESpec σ (Strm σ δ)} (init : EM σ β)
    (f : β → δ → EM σ β) (L : ELaw I s T K E) : ELaw (efold I init f) s T K (foldE E init f) := by
  refine ⟨L.base, L.present_eq, ?_, ?_, ?_⟩
  · intro p hp hl
    show I.data s (unpath (width I.base.N) p) p >>= _ = E.get (unpath (width I.base.N) p) >>= _
    rw [← L.data_eq p hp hl]
    refine EM.bind_congr fun o => ?_
    cases o <;> simp [applyE]
  · intro p hp hl h
    show I.dataU s (unpath (width I.base.N) p) p >>= _ = E.getU (unpath (width I.base.N) p) >>= _
    rw [← L.dataU_eq p hp hl h]
  · intro c p i hpos hp hi hl h
    show init >>= (fun b => I.curDataU c s i >>= _) = init >>= fun b => E.curU (unpath (width I.base.N) (p ++ [i])) >>= _
    rw [L.curDataU_eq c p i hpos hp hi hl h]

theorem fold_elawC {β : Type} {I : EImpl S C σ (Strm σ δ)} {E : ESpec σ (Strm σ δ)} (init : EM σ β)
    (f : β → δ → EM σ β) (L : ELawC I s T K E) : ELawC (efold I init f) s T K (foldE E init f) := by
  refine ⟨fold_elaw init f L.toELaw, L.baseC, ?_⟩
  intro c p i hpos hp hi hl
  show I.curData c s i >>= _ = E.cur (unpath (width I.base.N) (p ++ [i])) >>= _
  rw [L.curData_eq c p i hpos hp hi hl]
  refine EM.bind_congr fun o => ?_
  cases o <;> simp [applyE]

end

section
variable {S0 C0 S1 C1 σ δ0 δ1 : Type} {I0 : EImpl S0 C0 σ δ0} {I1 : EImpl S1 C1 σ δ1} {a : S0} {b : S1}
  {T0 T1 : TreeSpec Unit} {K0 : CursorRel C0} {K1 : CursorRel C1} {A : ESpec σ δ0} {B : ESpec σ δ1}

theorem union_elawC (hN : I0.base.N = I1.base.N) (hD : I0.base.D = I1.base.D)
    (L0 : ELawC I0 a T0 K0 A) (L1 : ELawC I1 b T1 K1 B) :
    ELawC (eunion I0 I1) (a, b) (mapSpec (unionSpec T0 T1) fun _ => ()) (unionRel I0.base.D K0 K1)
      (unionE A B) := by
  have hdata : ∀ p, ValidPath (width I0.base.N) p → p.length = I0.base.D →
      (eunion I0 I1).data (a, b) (unpath (width I0.base.N) p) p =
        (unionE A B).get (unpath (width I0.base.N) p) := by
    intro p hp hl
    have e0 := L0.data_eq p hp hl
    have e1 := L1.data_eq p (hN ▸ hp) (hD ▸ hl)
    rw [← hN] at e1
    show I0.data a (unpath (width I0.base.N) p) p >>= (fun d0 => I1.data b (unpath (width I0.base.N) p) p >>= _) = _
    simp only [unionE, pairE, e0, e1, EM.bind_assoc, EM.pure_bind, either_eq]
  have hcur : ∀ c p i, (unionRel I0.base.D K0 K1).pos c p → ValidPath (width I0.base.N) p →
      i < width I0.base.N → p.length + 1 = I0.base.D →
      (eunion I0 I1).curData c (a, b) i = (unionE A B).cur (unpath (width I0.base.N) (p ++ [i])) := by
    rintro ⟨c0, c1⟩ p i ⟨_, _, _, hC⟩ hp hi hl
    have e0 := L0.curData_eq c0 p i (hC hl).1 hp hi hl
    have e1 := L1.curData_eq c1 p i (hC hl).2 (hN ▸ hp) (hN ▸ hi) (hD ▸ hl)
    rw [← hN] at e1
    show I0.curData c0 a i >>= (fun d0 => I1.curData c1 b i >>= _) = _
    simp only [unionE, pairE, e0, e1, EM.bind_assoc, EM.pure_bind, either_eq]
  refine ⟨⟨map_lawful _ (union_lawfulC hN hD L0.baseC L1.baseC).toLawful, ?_, hdata, ?_, ?_⟩,
    map_lawfulC _ (union_lawfulC hN hD L0.baseC L1.baseC), hcur⟩
  · intro p hp hl
    have hp0 : ValidPath (width I0.base.N) p := hp
    have e0 := L0.present_eq p hp0 hl
    have e1 := L1.present_eq p (hN ▸ hp0) (hD ▸ hl)
    rw [← hN] at e1
    show (A.present (unpath (width I0.base.N) p) || B.present (unpath (width I0.base.N) p)) =
      (((unionSpec T0 T1).content p).map _).isSome
    rw [e0, e1]
    simp only [unionSpec]
    cases T0.content p <;> cases T1.content p <;> rfl
  · intro p hp hl _
    have := hdata p hp hl
    show (eunion I0 I1).data (a, b) (unpath (width I0.base.N) p) p >>= (fun o => EM.lift (unwrapU o)) = _
    rw [this]
    simp only [unionE, EM.bind_assoc, EM.pure_bind]
    rfl
  · intro c p i hpos hp hi hl _
    have := hcur c p i hpos hp hi hl
    show (eunion I0 I1).curData c (a, b) i >>= (fun o => EM.lift (unwrapU o)) = _
    rw [this]
    simp only [unionE, EM.bind_assoc, EM.pure_bind]
    rfl

theorem interSpec_isSome (p : List Nat) : ((interSpec T0 T1).content p).isSome =
    ((T0.content p).isSome && (T1.content p).isSome) := by
  simp only [interSpec]
  cases T0.content p <;> cases T1.content p <;> rfl

theorem inter_elaw (hN : I0.base.N = I1.base.N) (hD : I0.base.D = I1.base.D)
    (L0 : ELaw I0 a T0 K0 A) (L1 : ELaw I1 b T1 K1 B) :
    ELaw (einter I0 I1) (a, b) (mapSpec (interSpec T0 T1) fun _ => ()) (pairRel K0 K1) (interE A B) := by
  have hsome : ∀ p, ((mapSpec (interSpec T0 T1) fun _ => ()).content p).isSome = true →
      (T0.content p).isSome = true ∧ (T1.content p).isSome = true := by
    intro p h
    have h : (((interSpec T0 T1).content p).map _).isSome = true := h
    rw [Option.isSome_map, interSpec_isSome, Bool.and_eq_true] at h
    exact h
  refine ⟨map_lawful _ (inter_lawful hN hD L0.base L1.base), ?_, ?_, ?_, ?_⟩
  · intro p hp hl
    have hp0 : ValidPath (width I0.base.N) p := hp
    have e0 := L0.present_eq p hp0 hl
    have e1 := L1.present_eq p (hN ▸ hp0) (hD ▸ hl)
    rw [← hN] at e1
    show (A.present (unpath (width I0.base.N) p) && B.present (unpath (width I0.base.N) p)) =
      (((interSpec T0 T1).content p).map _).isSome
    rw [e0, e1, Option.isSome_map, interSpec_isSome]
  · intro p hp hl
    have hp0 : ValidPath (width I0.base.N) p := hp
    have e0 := L0.data_eq p hp0 hl
    have e1 := L1.data_eq p (hN ▸ hp0) (hD ▸ hl)
    rw [← hN] at e1
    show I0.data a (unpath (width I0.base.N) p) p >>= (fun d0 => I1.data b (unpath (width I0.base.N) p) p >>= _) =
      (interE A B).get (unpath (width I0.base.N) p)
    simp only [interE, pairE, e0, e1, EM.bind_assoc, EM.pure_bind, both_eq, EM.lift_ok]
  · intro p hp hl h
    have hp0 : ValidPath (width I0.base.N) p := hp
    have e0 := L0.dataU_eq p hp0 hl (hsome p h).1
    have e1 := L1.dataU_eq p (hN ▸ hp0) (hD ▸ hl) (hsome p h).2
    rw [← hN] at e1
    show I0.dataU a (unpath (width I0.base.N) p) p >>= (fun d0 => I1.dataU b (unpath (width I0.base.N) p) p >>= _) =
      (interE A B).getU (unpath (width I0.base.N) p)
    simp only [interE, pairE, e0, e1]
  · rintro ⟨c0, c1⟩ p i ⟨q0, q1⟩ hp hi hl h
    have hp0 : ValidPath (width I0.base.N) p := hp
    have e0 := L0.curDataU_eq c0 p i q0 hp0 hi hl (hsome _ h).1
    have e1 := L1.curDataU_eq c1 p i q1 (hN ▸ hp0) (hN ▸ hi) (hD ▸ hl) (hsome _ h).2
    rw [← hN] at e1
    show I0.curDataU c0 a i >>= (fun d0 => I1.curDataU c1 b i >>= _) =
      (interE A B).curU (unpath (width I0.base.N) (p ++ [i]))
    simp only [interE, pairE, e0, e1]

theorem inter_elawC (hN : I0.base.N = I1.base.N) (hD : I0.base.D = I1.base.D)
    (L0 : ELawC I0 a T0 K0 A) (L1 : ELawC I1 b T1 K1 B) :
    ELawC (einter I0 I1) (a, b) (mapSpec (interSpec T0 T1) fun _ => ()) (pairRel K0 K1) (interE A B) := by
  refine ⟨inter_elaw hN hD L0.toELaw L1.toELaw, map_lawfulC _ (inter_lawfulC hN hD L0.baseC L1.baseC), ?_⟩
  rintro ⟨c0, c1⟩ p i ⟨q0, q1⟩ hp hi hl
  have hp0 : ValidPath (width I0.base.N) p := hp
  have e0 := L0.curData_eq c0 p i q0 hp0 hi hl
  have e1 := L1.curData_eq c1 p i q1 (hN ▸ hp0) (hN ▸ hi) (hD ▸ hl)
  rw [← hN] at e1
  show I0.curData c0 a i >>= (fun d0 => I1.curData c1 b i >>= _) =
    (interE A B).cur (unpath (width I0.base.N) (p ++ [i]))
  simp only [interE, pairE, e0, e1, EM.bind_assoc, EM.pure_bind, both_eq, EM.lift_ok]

end

/-! ## Multi-trees -/

theorem emuGather_eq {S σ δ : Type} (data : S → EM σ (Option δ)) : ∀ (ss : List S) (acc : List δ),
    acc.length + ss.length ≤ multiCap →
    emuGather data ss acc = askAll (ss.map data) >>= fun ds => pure (acc ++ ds)
  | [], acc, _ => by simp [emuGather, askAll]
  | s :: ss, acc, h => by
    simp only [List.length_cons] at h
    simp only [emuGather, List.map_cons, askAll, EM.bind_assoc, EM.pure_bind]
    refine EM.bind_congr fun o => ?_
    cases o with
    | none => simp [emuGather_eq data ss acc (by omega)]
    | some d =>
      simp only [avPush, if_pos (show acc.length < multiCap by omega), EM.lift_ok, EM.pure_bind]
      rw [emuGather_eq data ss (acc ++ [d]) (by simp; omega)]
      simp

theorem emiGather_eq {S σ δ : Type} (data : S → EM σ (Option δ)) : ∀ (ss : List S) (acc : List δ),
    acc.length + ss.length ≤ multiCap →
    emiGather data ss acc = askWhile (ss.map data) >>= fun o => pure (o.map (acc ++ ·))
  | [], acc, _ => by simp [emiGather, askWhile]
  | s :: ss, acc, h => by
    simp only [List.length_cons] at h
    simp only [emiGather, List.map_cons, askWhile, EM.bind_assoc]
    refine EM.bind_congr fun o => ?_
    cases o with
    | none => simp
    | some d =>
      simp only [avPush, if_pos (show acc.length < multiCap by omega), EM.lift_ok, EM.pure_bind]
      rw [emiGather_eq data ss (acc ++ [d]) (by simp; omega)]
      simp only [EM.bind_assoc, EM.pure_bind]
      refine EM.bind_congr fun o => ?_
      cases o <;> simp

theorem filter_map_range {S β : Type} (q : S → Bool) (g : S → β) (h : Nat → β) : ∀ (ss : List S) (n : Nat),
    (∀ k s, ss[k]? = some s → q s = true → h (n + k) = g s) →
    ((List.range' n ss.length).filter (fun k => (ss[k - n]?).any q)).map h = (ss.filter q).map g
  | [], n, _ => rfl
  | s :: ss, n, hh => by
    have ih := filter_map_range q g h ss (n + 1) (fun k s' hk hq => by
      have := hh (k + 1) s' (by simpa using hk) hq
      rw [← this]; congr 1; omega)
    have e : (List.range' (n + 1) ss.length).filter (fun k => ((s :: ss)[k - n]?).any q) =
        (List.range' (n + 1) ss.length).filter (fun k => (ss[k - (n + 1)]?).any q) := by
      refine List.filter_congr fun k hk => ?_
      have := List.mem_range'_1.1 hk
      obtain ⟨j, rfl⟩ : ∃ j, k = n + 1 + j := ⟨k - (n + 1), by omega⟩
      have e1 : n + 1 + j - n = j + 1 := by omega
      have e2 : n + 1 + j - (n + 1) = j := by omega
      rw [e1, e2]; simp
    rw [List.length_cons, List.range'_succ, List.filter_cons, List.filter_cons]
    have e0 : ((s :: ss)[n - n]?).any q = q s := by simp
    rw [e0, e]
    cases hq : q s with
    | false => simpa using ih
    | true =>
      simp only [if_true, List.map_cons, ih]
      have h0 := hh 0 s (by simp) hq
      rw [Nat.add_zero] at h0
      rw [h0]

section
variable {S C σ δ : Type} {I : EImpl S C σ δ} {ss : List S} {T : S → TreeSpec Unit}
  {K : S → CursorRel C} {E : S → ESpec σ δ}

/-- A terminal node has a set bit iff some key of its block is present. -/
theorem neAt_block {s : S} (h : ELaw I s (T s) (K s) (E s)) {p : List Nat} {i : Nat}
    (hp : ValidPath (width I.base.N) p) (hi : i < width I.base.N) (hl : p.length + 1 = I.base.D) :
    neAt (width I.base.N) T p s = blockPresent (width I.base.N) (E s) (unpath (width I.base.N) (p ++ [i])) := by
  unfold neAt blockPresent
  have e : ∀ j, j < width I.base.N → (T s).bits p j =
      (E s).present (unpath (width I.base.N) (p ++ [i]) / width I.base.N * width I.base.N + j) := by
    intro j hj
    rw [h.base.wf.terminal p j hp hl hj, ← h.present_eq (p ++ [j]) (hp.append hj) (by simpa using hl)]
    congr 1
    rw [unpath_append, unpath_append]
    simp only [unpath, List.foldl, List.length_singleton, Nat.pow_one]
    rw [Nat.mul_comm _ (width I.base.N), Nat.mul_add_div (by omega)]
    simp [Nat.div_eq_of_lt hi, Nat.mul_comm]
  rw [Bool.eq_iff_iff, List.any_eq_true, List.any_eq_true]
  constructor
  · rintro ⟨j, hj, hb⟩; exact ⟨j, hj, by rw [← e j (List.mem_range.1 hj)]; exact hb⟩
  · rintro ⟨j, hj, hb⟩; exact ⟨j, hj, by rw [e j (List.mem_range.1 hj)]; exact hb⟩

theorem muSpec_isSome (p : List Nat) :
    ((muSpec T ss).content p).isSome = ss.any (fun s => ((T s).content p).isSome) := by
  simp only [muSpec]
  induction ss with
  | nil => rfl
  | cons s ss ih =>
    rw [List.any_cons, ← ih]
    cases h : (T s).content p with
    | none => simp [h]
    | some d => simp [h]

theorem mu_elaw (hcfg : ValidCfg I.base.N I.base.D) (hD : 2 ≤ I.base.D) (hcap : ss.length ≤ multiCap)
    (h : ∀ s ∈ ss, ELawC I s (T s) (K s) (E s)) :
    ELaw (emultiUnion I) ss (mapSpec (muSpec T ss) fun _ => ()) (muRel (width I.base.N) I.base.D T K ss)
      (multiUnionE (width I.base.N) (ss.map E)) := by
  refine ⟨map_lawful _ (mu_lawful hcfg hD hcap fun s hs => (h s hs).baseC), ?_, ?_, ?_, ?_⟩
  · intro p hp hl
    have hp : ValidPath (width I.base.N) p := hp
    have hl : p.length = I.base.D := hl
    show (ss.map E).any (fun A => A.present (unpath (width I.base.N) p)) =
      (((muSpec T ss).content p).map _).isSome
    rw [Option.isSome_map, muSpec_isSome, List.any_map]
    rw [Bool.eq_iff_iff, List.any_eq_true, List.any_eq_true]
    constructor
    · rintro ⟨s, hs, hb⟩; exact ⟨s, hs, by rw [← (h s hs).present_eq p hp hl]; exact hb⟩
    · rintro ⟨s, hs, hb⟩; exact ⟨s, hs, by rw [← (h s hs).present_eq p hp hl] at hb; exact hb⟩
  · intro p hp hl
    have hp : ValidPath (width I.base.N) p := hp
    have hl : p.length = I.base.D := hl
    show emuGather (fun s => I.data s (unpath (width I.base.N) p) p) ss [] >>= _ =
      askAll ((ss.map E).map (fun A => A.get (unpath (width I.base.N) p))) >>= _
    rw [emuGather_eq _ ss [] (by simpa using hcap), List.map_map]
    have e : ss.map (fun s => I.data s (unpath (width I.base.N) p) p) =
        ss.map ((fun A : ESpec σ δ => A.get (unpath (width I.base.N) p)) ∘ E) :=
      List.map_congr_left fun s hs => (h s hs).data_eq p hp hl
    rw [e, EM.bind_assoc]
    refine EM.bind_congr fun ds => ?_
    simp only [EM.pure_bind, List.nil_append]
    split <;> rfl
  · intro p hp hl _
    have hp : ValidPath (width I.base.N) p := hp
    have hl : p.length = I.base.D := hl
    show pure (ss.map fun s => I.data s (unpath (width I.base.N) p) p) =
      pure ((ss.map E).map (fun A => A.get (unpath (width I.base.N) p)))
    rw [List.map_map]
    exact congrArg pure (List.map_congr_left fun s hs => (h s hs).data_eq p hp hl)
  · intro c p i hpos hp hi hl hsome
    have hp : ValidPath (width I.base.N) p := hp
    have hi : i < width I.base.N := hi
    have hl : p.length + 1 = I.base.D := hl
    obtain ⟨h1, h2, h3, h4, h5⟩ := hpos
    have hlast : c.lvls.getLast? =
        some ((List.range ss.length).filter (neIdx (width I.base.N) T p ss)) := by
      have := h4 p.length (by omega) (by omega)
      rw [List.take_length] at this
      rw [List.getLast?_eq_getElem?, ← this]
      congr 1; omega
    have hstream : ((List.range ss.length).filter (neIdx (width I.base.N) T p ss)).map (fun k => (do
        let sc ← EM.lift (getU c.cursors k)
        I.curData sc.2 sc.1 i : EM σ (Option δ))) =
        (ss.filter (neAt (width I.base.N) T p)).map (fun s => (E s).cur (unpath (width I.base.N) (p ++ [i]))) := by
      rw [List.range_eq_range']
      refine filter_map_range (neAt (width I.base.N) T p) _ _ ss 0 ?_
      intro k s hk hq
      rw [Nat.zero_add]
      have hkc : k < c.cursors.length := by
        have := (List.getElem?_eq_some_iff.1 hk).1
        rw [← h1] at this; simpa using this
      obtain ⟨⟨s', cc⟩, hsc⟩ : ∃ x, c.cursors[k] = x := ⟨_, rfl⟩
      have hget : c.cursors[k]? = some (s', cc) := by rw [List.getElem?_eq_getElem hkc, hsc]
      have : ss[k]? = some s' := by rw [← h1]; simp [hget]
      rw [hk] at this
      cases this
      have hs := List.mem_of_getElem? hk
      rw [getU_some hget, EM.lift_ok, EM.pure_bind]
      have hposC := (h5 k s cc hget p.length (by omega) (by
        by_cases h2 : p.length ≤ 1
        · exact .inl h2
        · right
          rw [neAt_iff (fun j => (h s hs).base.wf.bits_lt _ j)] at hq ⊢
          obtain ⟨j, hj⟩ := hq
          have hne : p ≠ [] := by intro e; simp [e] at h2
          refine ⟨p.getLast hne, (h s hs).base.wf.upward _ _ j ?_ ?_ ?_ ?_⟩
          · exact hp.take _
          · exact hp _ (List.getLast_mem hne)
          · simp; omega
          · rw [← List.dropLast_eq_take, List.dropLast_concat_getLast hne]; exact hj)).2 hl
      rw [List.take_length] at hposC
      exact (h s hs).curData_eq cc p i hposC hp hi hl
    have hfil : (ss.filter (neAt (width I.base.N) T p)).map
        (fun s => (E s).cur (unpath (width I.base.N) (p ++ [i]))) =
        ((ss.map E).filter (blockPresent (width I.base.N) · (unpath (width I.base.N) (p ++ [i])))).map
          (fun A => A.cur (unpath (width I.base.N) (p ++ [i]))) := by
      rw [List.filter_map, List.map_map]
      rw [List.filter_congr (q := (fun A => blockPresent (width I.base.N) A (unpath (width I.base.N) (p ++ [i]))) ∘ E)]
      · rfl
      · intro s hs
        exact neAt_block (h s hs).toELaw hp hi hl
    have hne : ((List.range ss.length).filter (neIdx (width I.base.N) T p ss)).isEmpty = false := by
      have hsome : (((muSpec T ss).content (p ++ [i])).map _).isSome = true := hsome
      rw [Option.isSome_map, muSpec_isSome, List.any_eq_true] at hsome
      obtain ⟨s, hs, hb⟩ := hsome
      rw [← (h s hs).base.wf.terminal p i hp hl hi] at hb
      obtain ⟨k, hk⟩ := List.getElem?_of_mem hs
      have hm : k ∈ (List.range ss.length).filter (neIdx (width I.base.N) T p ss) := by
        rw [List.mem_filter, List.mem_range]
        refine ⟨(List.getElem?_eq_some_iff.1 hk).1, ?_⟩
        simp only [neIdx, hk, Option.any_some]
        exact (neAt_iff (fun j => (h s hs).base.wf.bits_lt _ j)).2 ⟨i, hb⟩
      cases hl : (List.range ss.length).filter (neIdx (width I.base.N) T p ss) with
      | nil => rw [hl] at hm; simp at hm
      | cons x xs => rfl
    show (emultiUnion I).curData c ss i >>= (fun o => EM.lift (unwrapU o)) = pure
      (((ss.map E).filter (blockPresent (width I.base.N) · (unpath (width I.base.N) (p ++ [i])))).map
        (fun A => A.cur (unpath (width I.base.N) (p ++ [i]))))
    rw [← hfil, ← hstream]
    simp only [emultiUnion, if_neg (show ¬ I.base.D = 1 by omega), hlast, unwrapU, EM.lift_ok, EM.pure_bind]
    rw [hne]
    rfl

theorem mi_content_isSome (p : List Nat) :
    ((miSpec T ss).content p).isSome = ss.all (fun s => ((T s).content p).isSome) := mapM_isSome _ _

theorem emiCursorData_eq {i : Nat} {P : S → C → Prop} {g : S → EM σ δ} : ∀ (ss : List S) (cs : List C),
    (∀ s ∈ ss, ∀ c, P s c → I.curDataU c s i = g s) → All2 P ss cs →
    emiCursorData I i cs ss = ss.map (fun s => someE (g s))
  | [], [], _, _ => rfl
  | [], _ :: _, _, h => h.elim
  | _ :: _, [], _, h => h.elim
  | s :: ss, c :: cs, hg, hP => by
    simp only [emiCursorData, List.head?_cons, unwrapU, EM.lift_ok, EM.pure_bind, List.tail_cons, List.map_cons,
      hg s (by simp) c hP.1, emiCursorData_eq ss cs (fun s hs => hg s (by simp [hs])) hP.2, someE]

theorem mi_elawC (hne : ss ≠ []) (hcap : ss.length ≤ multiCap)
    (h : ∀ s ∈ ss, ELaw I s (T s) (K s) (E s)) :
    ELawC (emultiInter I) ss (mapSpec (miSpec T ss) fun _ => ()) (miRel I.base.N I.base.D T K ss)
      (multiInterE (ss.map E)) := by
  have LC := mi_lawfulC hne hcap fun s hs => (h s hs).base
  have hall : ∀ p, ((mapSpec (miSpec T ss) fun _ => ()).content p).isSome = true →
      ∀ s ∈ ss, ((T s).content p).isSome = true := by
    intro p hsome
    have hsome : (((miSpec T ss).content p).map _).isSome = true := hsome
    rw [Option.isSome_map, mi_content_isSome, List.all_eq_true] at hsome
    exact hsome
  have hpres : ∀ p, ValidPath (width I.base.N) p → p.length = I.base.D →
      (ss.map E).all (fun A => A.present (unpath (width I.base.N) p)) = ((miSpec T ss).content p).isSome := by
    intro p hp hl
    rw [mi_content_isSome, List.all_map]
    rw [Bool.eq_iff_iff, List.all_eq_true, List.all_eq_true]
    constructor
    · intro hb s hs; rw [← (h s hs).present_eq p hp hl]; exact hb s hs
    · intro hb s hs
      have := hb s hs
      rw [← (h s hs).present_eq p hp hl] at this; exact this
  have hcur : ∀ c p i, (miRel I.base.N I.base.D T K ss).pos c p → ValidPath (width I.base.N) p →
      i < width I.base.N → p.length + 1 = I.base.D →
      ((mapSpec (miSpec T ss) fun _ => ()).content (p ++ [i])).isSome = true →
      emiCursorData I i c.cursors ss =
        (ss.map E).map (fun A => someE (A.curU (unpath (width I.base.N) (p ++ [i])))) := by
    intro c p i hpos hp hi hl hsome
    rw [List.map_map]
    exact emiCursorData_eq (P := fun s c => (K s).pos c p)
      (g := fun s => (E s).curU (unpath (width I.base.N) (p ++ [i]))) ss c.cursors
      (fun s hs c hP => (h s hs).curDataU_eq c p i hP hp hi hl (hall _ hsome s hs)) hpos.1
  refine ⟨⟨map_lawful _ LC.toLawful, ?_, ?_, ?_, ?_⟩, map_lawfulC _ LC, ?_⟩
  · intro p hp hl
    show (ss.map E).all _ = (((miSpec T ss).content p).map _).isSome
    rw [Option.isSome_map]
    exact hpres p hp hl
  · intro p hp hl
    have hp : ValidPath (width I.base.N) p := hp
    have hl : p.length = I.base.D := hl
    show emiGather (fun s => I.data s (unpath (width I.base.N) p) p) ss [] >>= _ =
      askWhile ((ss.map E).map (fun A => A.get (unpath (width I.base.N) p))) >>= _
    rw [emiGather_eq _ ss [] (by simpa using hcap), List.map_map]
    have e : ss.map (fun s => I.data s (unpath (width I.base.N) p) p) =
        ss.map ((fun A : ESpec σ δ => A.get (unpath (width I.base.N) p)) ∘ E) :=
      List.map_congr_left fun s hs => (h s hs).data_eq p hp hl
    rw [e, EM.bind_assoc]
    refine EM.bind_congr fun o => ?_
    cases o <;> simp
  · intro p hp hl hsome
    have hp : ValidPath (width I.base.N) p := hp
    have hl : p.length = I.base.D := hl
    show pure (ss.map fun s => someE (I.dataU s (unpath (width I.base.N) p) p)) =
      pure ((ss.map E).map (fun A => someE (A.getU (unpath (width I.base.N) p))))
    rw [List.map_map]
    refine congrArg pure (List.map_congr_left fun s hs => ?_)
    rw [(h s hs).dataU_eq p hp hl (hall p hsome s hs)]
    rfl
  · intro c p i hpos hp hi hl hsome
    show pure (emiCursorData I i c.cursors ss) = pure _
    rw [hcur c p i hpos hp hi hl hsome]
    rfl
  · intro c p i hpos hp hi hl
    have hp : ValidPath (width I.base.N) p := hp
    have hi : i < width I.base.N := hi
    have hl : p.length + 1 = I.base.D := hl
    have hpos' := LC.posC_pos c p hpos
    obtain ⟨h1, h2, h3, h4⟩ := hpos
    have hg : getBit c.terminalMask i = .ok (c.terminalMask.bit i) := getBit_eq _ (by rw [h3]; exact hi)
    have hb : c.terminalMask.bit i = ((miSpec T ss).content (p ++ [i])).isSome := by
      rw [h4 hl i, LC.wf.terminal p i hp hl hi]
    have hpr := hpres (p ++ [i]) (hp.append hi) (by simpa using hl)
    show EM.lift (getBit c.terminalMask i) >>= _ =
      pure (if (ss.map E).all (fun A => A.present (unpath (width I.base.N) (p ++ [i]))) then _ else none)
    rw [hg, hb, EM.lift_ok, EM.pure_bind, hpr]
    cases hsm : ((miSpec T ss).content (p ++ [i])).isSome with
    | false => rfl
    | true =>
      have := hcur c p i hpos' hp hi hl (by
        show (((miSpec T ss).content (p ++ [i])).map _).isSome = true
        rw [Option.isSome_map]; exact hsm)
      simp only [Bool.not_true, Bool.false_eq_true, if_false, if_true, this]
      rfl

end

/-! ## Iteration -/

theorem runElements_nil {σ δ : Type} (n : Nat) (z : σ) :
    runElements n ([] : List (Nat × EM σ δ)) z = .ok (List.replicate n (.returned none), z) := by
  cases n <;> rfl

section
variable {S C σ δ : Type} {I : EImpl S C σ δ} {s : S} {T : TreeSpec Unit} {K : CursorRel C} {E : ESpec σ δ}

theorem etake_spec (L : ELaw I s T K E) (fuel : Nat) : ∀ (n : Nat) (st : IterSt C)
    (p : List Nat) (z : σ), ItInv I.base T K st p → mu (width I.base.N) I.base.D st.iters I.base.D < fuel →
    I.take s fuel n st z =
      runElements n ((remBelow (width I.base.N) I.base.D T.content st.iters p I.base.D).map
        (fun e => (e.1, E.curU e.1))) z := by
  intro n
  induction n with
  | zero =>
    intro st p z _ _
    cases remBelow (width I.base.N) I.base.D T.content st.iters p I.base.D <;> rfl
  | succ n ih =>
    intro st p z h hf
    rcases loop_spec L.base fuel st p h hf with
      ⟨st', p', e, j1, j2, j3, j4⟩ | ⟨st', p', y, m, e, j1, j2, j3, j4, j5, j6⟩
    · have e1 := ih st' p' z j1 (by omega)
      rw [j3, List.map_nil, runElements_nil] at e1
      simp only [EImpl.take, EImpl.next, e, bind_ok, pure_eq_ok, e1, j2]
      rfl
    · have hdat := L.curDataU_eq st'.cur p' y j1.ppos j1.pval j3 j2 (by rw [j4]; rfl)
      have hidx := dataBlockIndex_eq L.base.cfg j2 j1.pval j3 j1.lidx
      rw [j5]
      simp only [EImpl.take, EImpl.next, e, bind_ok, pure_eq_ok, hdat, List.map_cons, runElements]
      cases hm : E.curU (unpath (width I.base.N) (p' ++ [y])) z with
      | error er => rfl
      | ok r =>
        obtain ⟨o, z'⟩ := r
        have e1 := ih st' p' z' j1 (by omega)
        cases o with
        | panicked => simp only [bind_ok, e1]
        | returned d => simp only [hidx, bind_ok, e1]

theorem erun_spec (L : ELaw I s T K E) :
    ∃ F, ∀ fuel, F ≤ fuel → ∀ n z, I.run s fuel n z =
      runElements n ((entries (width I.base.N) I.base.D T.content).map (fun e => (e.1, E.curU e.1))) z := by
  obtain ⟨st, e, h, hr⟩ := iterNew_spec L.base
  refine ⟨mu (width I.base.N) I.base.D st.iters I.base.D + 1, ?_⟩
  intro fuel hf n z
  simp only [EImpl.run, e, bind_ok]
  rw [etake_spec L fuel n st [] z h (by omega), hr]

end

end Hibit
