import Verif.ClosuresSafe
import Verif.Props.Trees
/-!
# Property C62: when, in which order and how often the caller's closures run, and what a panic in one does

`Verif/Closures.lean` has the model (`EImpl`: tree expressions whose closures run in `EM σ`, `σ` being the state
they share) and the specification (`ESpec`: what each way of asking for a key does). `EBuilt` below is
the language of expressions with closures, with the specification of each; the first theorems hold of all
of them, the rest spell out the important shapes in terms of the closures alone.
-/
namespace Hibit.Props

-- instance search only (the examples compare nested tuples)
set_option synthInstance.maxSize 4000

open Hibit

/-- Expressions over trees with closures. `E` says what each does, key by key; `V` holds of every value it produces. The
closures must be defined on the values they are given (`Total`): they may do anything to the state `σ`, return or
panic, but not have undefined behaviour (a closure that gets an iterator may run it). The
flag is that of `Built`. -/
inductive EBuilt : Bool → {S C σ δ : Type} → EImpl S C σ δ → S → ESpec σ δ → (δ → Prop) → Prop
  /-- a container, a user's tree, or any expression without closures of this kind -/
  | leaf {x : Bool} {S C σ δ : Type} {I : Impl S C δ} {s : S} {M : Nat → Option δ} : Built x I s M →
      EBuilt x (eleaf (σ := σ) I) s (leafE M) (fun d => ∃ k, M k = some d)
  | weaken {S C σ δ : Type} {I : EImpl S C σ δ} {s : S} {E : ESpec σ δ} {V : δ → Prop} :
      EBuilt true I s E V → EBuilt false I s E V
  | map {x : Bool} {S C σ δ ε : Type} {I : EImpl S C σ δ} {s : S} {E : ESpec σ δ} {V : δ → Prop}
      {V' : ε → Prop} (f : δ → EM σ ε) : EBuilt x I s E V → (∀ d, V d → Total V' (f d)) →
      EBuilt x (emap I f) s (mapE E f) V'
  | union {S0 C0 S1 C1 σ δ0 δ1 : Type} {I0 : EImpl S0 C0 σ δ0} {I1 : EImpl S1 C1 σ δ1} {a : S0} {b : S1}
      {A : ESpec σ δ0} {B : ESpec σ δ1} {V0 : δ0 → Prop} {V1 : δ1 → Prop} :
      I0.base.N = I1.base.N → I0.base.D = I1.base.D → EBuilt true I0 a A V0 → EBuilt true I1 b B V1 →
      EBuilt true (eunion I0 I1) (a, b) (unionE A B)
        (fun e => (∀ v, e.1 = some v → V0 v) ∧ ∀ v, e.2 = some v → V1 v)
  | inter {x : Bool} {S0 C0 S1 C1 σ δ0 δ1 : Type} {I0 : EImpl S0 C0 σ δ0} {I1 : EImpl S1 C1 σ δ1} {a : S0}
      {b : S1} {A : ESpec σ δ0} {B : ESpec σ δ1} {V0 : δ0 → Prop} {V1 : δ1 → Prop} :
      I0.base.N = I1.base.N → I0.base.D = I1.base.D → EBuilt x I0 a A V0 → EBuilt x I1 b B V1 →
      EBuilt x (einter I0 I1) (a, b) (interE A B) (fun e => V0 e.1 ∧ V1 e.2)
  | multiUnion {S C σ δ : Type} {I : EImpl S C σ δ} {ss : List S} {V : δ → Prop} (E : S → ESpec σ δ) :
      ValidCfg I.base.N I.base.D → 2 ≤ I.base.D → ss.length ≤ 32 →
      (∀ s ∈ ss, EBuilt true I s (E s) V) →
      EBuilt false (emultiUnion I) ss (multiUnionE (width I.base.N) (ss.map E)) (Steps V)
  | multiInter {S C σ δ : Type} {I : EImpl S C σ δ} {ss : List S} {V : δ → Prop} (E : S → ESpec σ δ) :
      ss ≠ [] → ss.length ≤ 32 → (∀ s ∈ ss, EBuilt false I s (E s) V) →
      EBuilt true (emultiInter I) ss (multiInterE (ss.map E)) (Steps V)
  | fold {x : Bool} {S C σ δ β : Type} {I : EImpl S C σ (Strm σ δ)} {s : S} {E : ESpec σ (Strm σ δ)}
      {V : δ → Prop} {V' : β → Prop} (init : EM σ β) (f : β → δ → EM σ β) :
      EBuilt x I s E (Steps V) → Total V' init → (∀ b d, V' b → V d → Total V' (f b d)) →
      EBuilt x (efold I init f) s (foldE E init f) V'

/-! ## No undefined behaviour -/

theorem ebuilt_safe {x : Bool} {S C σ δ : Type} {I : EImpl S C σ δ} {s : S} {E : ESpec σ δ} {V : δ → Prop}
    (h : EBuilt x I s E V) : ESafe x E V := by
  induction h with
  | @leaf x S C σ δ I s M h =>
    have hg : ∀ k, Answers (M k).isSome (fun d => ∃ k, M k = some d) (M k) :=
      fun k => ⟨rfl, fun d e => ⟨k, e⟩⟩
    refine ⟨fun k => Total.pure (hg k), fun k hk => ?_, fun k hk => ?_, fun _ k => Total.pure (hg k)⟩ <;>
    · have := hg k
      rw [show (M k).isSome = true from hk] at this
      exact total_unwrap this
  | weaken _ ih => exact ⟨ih.get, ih.getU, ih.curU, fun e => by cases e⟩
  | map f _ hf ih =>
    exact ⟨fun k => (ih.get k).bind fun o ho => total_apply hf ho, fun k hk => (ih.getU k hk).bind hf,
      fun k hk => (ih.curU k hk).bind hf, fun e k => (ih.cur e k).bind fun o ho => total_apply hf ho⟩
  | union _ _ _ _ iha ihb =>
    refine ⟨fun k => ?_, fun k hk => ?_, fun k hk => ?_, fun e k => ?_⟩
    · exact (total_pair (iha.get k) (ihb.get k)).bind fun r hr => Total.pure (answers_either hr.1 hr.2)
    · refine (total_pair (iha.get k) (ihb.get k)).bind fun r hr => total_unwrap ?_
      have := answers_either hr.1 hr.2
      rw [show (_ || _) = true from hk] at this
      exact this
    · refine (total_pair (iha.cur rfl k) (ihb.cur rfl k)).bind fun r hr => total_unwrap ?_
      have := answers_either hr.1 hr.2
      rw [show (_ || _) = true from hk] at this
      exact this
    · exact (total_pair (iha.cur rfl k) (ihb.cur rfl k)).bind fun r hr =>
        Total.pure (answers_either hr.1 hr.2)
  | inter _ _ _ _ iha ihb =>
    refine ⟨fun k => ?_, fun k hk => ?_, fun k hk => ?_, fun e k => ?_⟩
    · exact (total_pair (iha.get k) (ihb.get k)).bind fun r hr => Total.pure (answers_both hr.1 hr.2)
    · have hk := (Bool.and_eq_true _ _).mp (show (_ && _) = true from hk)
      exact total_pair (iha.getU k hk.1) (ihb.getU k hk.2)
    · have hk := (Bool.and_eq_true _ _).mp (show (_ && _) = true from hk)
      exact total_pair (iha.curU k hk.1) (ihb.curU k hk.2)
    · exact (total_pair (iha.cur e k) (ihb.cur e k)).bind fun r hr => Total.pure (answers_both hr.1 hr.2)
  | @multiUnion S C σ δ I ss V E hcfg hD hcap _ ih =>
    have hstep : ∀ {x : Bool} {m : EM σ (Option δ)}, Total (Answers x V) m →
        Total (fun o => ∀ d, o = some d → V d) m := fun h => h.imp fun o ho => ho.2
    refine ⟨fun k => ?_, fun k hk => ?_, fun k hk => ?_, fun e => by cases e⟩
    · have e : (ss.map E).map (·.get k) = ss.map (fun s => (E s).get k) := by rw [List.map_map]; rfl
      show Total _ (askAll ((ss.map E).map (·.get k)) >>= _)
      rw [e]
      refine (total_askAll (V := V) _ (ss.map fun s => (E s).present k)
        (all2_map _ _ ss fun s hs => (ih s hs).get k)).bind fun ds hds => Total.pure ?_
      have hp : (multiUnionE (width I.base.N) (ss.map E)).present k = !ds.isEmpty := by
        rw [hds.1, Bool.not_not]
        show (ss.map E).any _ = _
        rw [List.any_map, List.any_map]; rfl
      rw [hp]
      cases ds with
      | nil => exact ⟨rfl, fun d e => by cases e⟩
      | cons d ds => exact ⟨rfl, fun it e => by cases e; exact steps_ready hds.2⟩
    · refine Total.pure fun m hm => ?_
      simp only [List.mem_map] at hm
      obtain ⟨A, ⟨s, hs, rfl⟩, rfl⟩ := hm
      exact hstep ((ih s hs).get k)
    · refine Total.pure fun m hm => ?_
      simp only [List.mem_map, List.mem_filter] at hm
      obtain ⟨A, ⟨⟨s, hs, rfl⟩, _⟩, rfl⟩ := hm
      exact hstep ((ih s hs).cur rfl k)
  | @multiInter S C σ δ I ss V E hne hcap _ ih =>
    have hall : ∀ {k : Nat}, (multiInterE (ss.map E)).present k = true → ∀ s ∈ ss, (E s).present k = true := by
      intro k hk s hs
      have hk : (ss.map E).all (fun A => A.present k) = true := hk
      rw [List.all_map, List.all_eq_true] at hk
      exact hk s hs
    refine ⟨fun k => ?_, fun k hk => ?_, fun k hk => ?_, fun _ k => ?_⟩
    · have e : (ss.map E).map (·.get k) = ss.map (fun s => (E s).get k) := by rw [List.map_map]; rfl
      show Total _ (askWhile ((ss.map E).map (·.get k)) >>= _)
      rw [e]
      refine (total_askWhile (V := V) _ (ss.map fun s => (E s).present k)
        (all2_map _ _ ss fun s hs => (ih s hs).get k)).bind fun ods hds => Total.pure ⟨?_, ?_⟩
      · rw [Option.isSome_map, hds.1]
        show _ = (ss.map E).all _
        rw [List.all_map, List.all_map]; rfl
      · intro it e
        cases ods with
        | none => cases e
        | some ds => cases e; exact steps_ready (hds.2 ds rfl)
    · refine Total.pure fun m hm => ?_
      simp only [List.mem_map] at hm
      obtain ⟨A, ⟨s, hs, rfl⟩, rfl⟩ := hm
      exact total_someE ((ih s hs).getU k (hall hk s hs))
    · refine Total.pure fun m hm => ?_
      simp only [List.mem_map] at hm
      obtain ⟨A, ⟨s, hs, rfl⟩, rfl⟩ := hm
      exact total_someE ((ih s hs).curU k (hall hk s hs))
    · refine Total.pure ?_
      have hp : (multiInterE (ss.map E)).present k = (ss.map E).all (fun A => A.present k) := rfl
      rw [hp]
      cases hb : (ss.map E).all (fun A => A.present k) with
      | false => exact ⟨rfl, fun d e => by cases e⟩
      | true =>
        refine ⟨rfl, fun it e => ?_⟩
        cases e
        intro m hm
        simp only [List.mem_map] at hm
        obtain ⟨A, ⟨s, hs, rfl⟩, rfl⟩ := hm
        exact total_someE ((ih s hs).curU k (hall (hp.trans hb) s hs))
  | fold init f _ hi hf ih =>
    have hrun : ∀ it, Steps _ it → Total _ (do let b ← init; it.fold f b) := fun it hit =>
      hi.bind fun b hb => total_fold hf it b hit hb
    exact ⟨fun k => (ih.get k).bind fun o ho => total_apply hrun ho, fun k hk => (ih.getU k hk).bind hrun,
      fun k hk => hi.bind fun b hb => (ih.curU k hk).bind fun it hit => total_fold hf it b hit hb,
      fun e k => (ih.cur e k).bind fun o ho => total_apply hrun ho⟩

/-! ## The model does what the specification says -/

theorem choose_law {S C : Type} {ss : List S} {P : S → TreeSpec Unit → CursorRel C → Prop}
    (h : ∀ s ∈ ss, ∃ T K, P s T K) :
    ∃ (T : S → TreeSpec Unit) (K : S → CursorRel C), ∀ s ∈ ss, P s (T s) (K s) := by
  have h' : ∀ s, ∃ T K, s ∈ ss → P s T K := by
    intro s
    by_cases hs : s ∈ ss
    · obtain ⟨T, K, e⟩ := h s hs
      exact ⟨T, K, fun _ => e⟩
    · exact ⟨⟨fun _ _ => false, fun _ => none⟩, ⟨fun _ => True, fun _ _ => True, fun _ _ => True⟩,
        fun e => absurd e hs⟩
  obtain ⟨T, hT⟩ := Classical.skolem.1 h'
  obtain ⟨K, hK⟩ := Classical.skolem.1 hT
  exact ⟨T, K, hK⟩

theorem ebuilt_law {x : Bool} {S C σ δ : Type} {I : EImpl S C σ δ} {s : S} {E : ESpec σ δ} {V : δ → Prop}
    (h : EBuilt x I s E V) :
    (∃ T K, ELaw I s T K E) ∧ (x = true → ∃ T K, ELawC I s T K E) := by
  induction h with
  | leaf h =>
    refine ⟨?_, fun e => ?_⟩
    · obtain ⟨T, K, L, hc⟩ := (built_isTree h).1
      exact ⟨_, _, leaf_elaw L hc⟩
    · obtain ⟨T, K, L, hc⟩ := (built_isTree h).2 e
      exact ⟨_, _, leaf_elawC L hc⟩
  | weaken _ ih => exact ⟨ih.1, fun e => by cases e⟩
  | map f _ _ ih =>
    refine ⟨?_, fun e => ?_⟩
    · obtain ⟨T, K, L⟩ := ih.1
      exact ⟨_, _, map_elaw f L⟩
    · obtain ⟨T, K, L⟩ := ih.2 e
      exact ⟨_, _, map_elawC f L⟩
  | union hN hD _ _ iha ihb =>
    obtain ⟨T0, K0, L0⟩ := iha.2 rfl
    obtain ⟨T1, K1, L1⟩ := ihb.2 rfl
    have := union_elawC hN hD L0 L1
    exact ⟨⟨_, _, this.toELaw⟩, fun _ => ⟨_, _, this⟩⟩
  | inter hN hD _ _ iha ihb =>
    refine ⟨?_, fun e => ?_⟩
    · obtain ⟨T0, K0, L0⟩ := iha.1
      obtain ⟨T1, K1, L1⟩ := ihb.1
      exact ⟨_, _, inter_elaw hN hD L0 L1⟩
    · obtain ⟨T0, K0, L0⟩ := iha.2 e
      obtain ⟨T1, K1, L1⟩ := ihb.2 e
      exact ⟨_, _, inter_elawC hN hD L0 L1⟩
  | multiUnion E hcfg hD hcap _ ih =>
    obtain ⟨T, K, h⟩ := choose_law fun s hs => (ih s hs).2 rfl
    exact ⟨⟨_, _, mu_elaw hcfg hD hcap h⟩, fun e => by cases e⟩
  | multiInter E hne hcap _ ih =>
    obtain ⟨T, K, h⟩ := choose_law fun s hs => (ih s hs).1
    have := mi_elawC hne hcap h
    exact ⟨⟨_, _, this.toELaw⟩, fun _ => ⟨_, _, this⟩⟩
  | fold init f _ _ _ ih =>
    refine ⟨?_, fun e => ?_⟩
    · obtain ⟨T, K, L⟩ := ih.1
      exact ⟨_, _, fold_elaw init f L⟩
    · obtain ⟨T, K, L⟩ := ih.2 e
      exact ⟨_, _, fold_elawC init f L⟩

/-- The keys present in `E`, below `n`, ascending, each with what `next` does there. -/
def elements {σ δ : Type} (n : Nat) (E : ESpec σ δ) : List (Nat × EM σ δ) :=
  ((List.range n).filter E.present).map (fun k => (k, E.curU k))

section
variable {x : Bool} {S C σ δ : Type} {I : EImpl S C σ δ} {s : S} {E : ESpec σ δ} {V : δ → Prop}

/-- **C62**, `get`: what the closures do is `E.get k` (a panic among them comes out of `get`); an out-of-range key
panics before any closure runs. -/
theorem C62_get (h : EBuilt x I s E V) (k : Nat) (z : σ) :
    I.get s k z = if k < min (width I.base.N ^ I.base.D) (2 ^ 64 - 1) then E.get k z else .error .panic := by
  obtain ⟨T, K, L⟩ := (ebuilt_law h).1
  unfold EImpl.get indexFrom saturatingPow usizeMod
  by_cases hk : k < min (width I.base.N ^ I.base.D) (2 ^ 64 - 1)
  · have hk' : k < width I.base.N ^ I.base.D := by omega
    rw [if_pos hk, if_pos hk, EM.lift_ok, EM.pure_bind, levelIndices_eq L.base.cfg, EM.lift_ok, EM.pure_bind]
    have := L.data_eq _ (path_lt I.base.D hk') (path_length _ _ _)
    rw [unpath_path _ _ _ hk'] at this
    rw [this]
  · rw [if_neg hk, if_neg hk]; rfl

/-- **C62**, `get_unchecked` of a present key. -/
theorem C62_get_unchecked (h : EBuilt x I s E V) {k : Nat} (hk : k < width I.base.N ^ I.base.D)
    (hp : E.present k = true) (z : σ) : I.getU s k z = E.getU k z := by
  obtain ⟨T, K, L⟩ := (ebuilt_law h).1
  unfold EImpl.getU
  have hpr := L.present_eq _ (path_lt I.base.D hk) (path_length _ _ _)
  rw [unpath_path _ _ _ hk, hp] at hpr
  have := L.dataU_eq _ (path_lt I.base.D hk) (path_length _ _ _) hpr.symm
  rw [unpath_path _ _ _ hk] at this
  rw [levelIndices_eq L.base.cfg, EM.lift_ok, EM.pure_bind, this]

theorem entries_elements {T : TreeSpec Unit} {K : CursorRel C} (L : ELaw I s T K E) :
    (entries (width I.base.N) I.base.D T.content).map (fun e => (e.1, E.curU e.1)) =
      elements (width I.base.N ^ I.base.D) E := by
  have hp : ∀ k, k < width I.base.N ^ I.base.D →
      E.present k = (T.content (path (width I.base.N) I.base.D k)).isSome := by
    intro k hk
    have := L.present_eq _ (path_lt I.base.D hk) (path_length _ _ _)
    rwa [unpath_path _ _ _ hk] at this
  unfold entries elements
  have : ∀ l : List Nat, (∀ k ∈ l, k < width I.base.N ^ I.base.D) →
      (l.filterMap (fun i => (T.content (path (width I.base.N) I.base.D i)).map (fun d => (i, d)))).map
        (fun e => (e.1, E.curU e.1)) = (l.filter E.present).map (fun k => (k, E.curU k)) := by
    intro l
    induction l with
    | nil => intro _; rfl
    | cons k l ih =>
      intro hl
      have hk := hp k (hl k (by simp))
      have ih := ih fun k hk => hl k (by simp [hk])
      cases hc : T.content (path (width I.base.N) I.base.D k) with
      | none => rw [hc] at hk; simp [hc, hk, ih]
      | some d => rw [hc] at hk; simp [hc, hk, ih]
  exact this _ fun k hk => List.mem_range.1 hk

/-- **C62**, iteration: for every expression and every initial state `z` of the closures, the `i`-th call of `next`
runs the closures of the `i`-th element (in key order) as `E.curU` says and no others, and returns its key and
value; if they panic the call unwinds and the next call goes on with the next element. After the last
element nothing is run. -/
theorem C62_next (h : EBuilt x I s E V) :
    ∃ F, ∀ fuel, F ≤ fuel → ∀ n z,
      I.run s fuel n z = runElements n (elements (width I.base.N ^ I.base.D) E) z := by
  obtain ⟨T, K, L⟩ := (ebuilt_law h).1
  obtain ⟨F, hF⟩ := erun_spec L
  refine ⟨F, fun fuel hf n z => ?_⟩
  rw [hF fuel hf n z, entries_elements L]

theorem runElements_total : ∀ (n : Nat) (l : List (Nat × EM σ δ)) (z : σ), (∀ e ∈ l, Total V e.2) →
    ∃ os z', runElements n l z = .ok (os, z')
  | 0, _, z, _ => ⟨[], z, rfl⟩
  | n + 1, [], z, _ => ⟨_, z, rfl⟩
  | n + 1, (k, m) :: l, z, h => by
    obtain ⟨o, z', e, -⟩ := h (k, m) (by simp) z
    obtain ⟨os, z'', e'⟩ := runElements_total n l z' fun e he => h e (by simp [he])
    have e : m z = .ok (o, z') := e
    exact ⟨_, z'', by simp only [runElements, e, bind_ok, e']; rfl⟩

/-- **C62**, safety: whatever the closures do to their state and whichever of them panic, `get` of an in-range key
returns (`Some` exactly at present keys) or unwinds, `get_unchecked` of a present key and every call of `next`
return or unwind: no panic of the library's own, no undefined behaviour. -/
theorem C62_safe (h : EBuilt x I s E V) :
    (∀ k, k < width I.base.N ^ I.base.D → k < 2 ^ 64 - 1 → Total (Answers (E.present k) V) (I.get s k)) ∧
    (∀ k, k < width I.base.N ^ I.base.D → E.present k = true → Total V (I.getU s k)) ∧
    ∃ F, ∀ fuel, F ≤ fuel → ∀ n z, ∃ os z', I.run s fuel n z = .ok (os, z') := by
  have hs := ebuilt_safe h
  refine ⟨fun k hk hu => ?_, fun k hk hp => ?_, ?_⟩
  · have : I.get s k = E.get k := by
      funext z
      rw [C62_get h, if_pos (by omega)]
    rw [this]; exact hs.get k
  · have : I.getU s k = E.getU k := funext fun z => C62_get_unchecked h hk hp z
    rw [this]; exact hs.getU k hp
  · obtain ⟨F, hF⟩ := C62_next h
    refine ⟨F, fun fuel hf n z => ?_⟩
    rw [hF fuel hf n z]
    refine runElements_total (V := V) n _ z fun e he => ?_
    simp only [elements, List.mem_map, List.mem_filter] at he
    obtain ⟨k, ⟨_, hk⟩, rfl⟩ := he
    exact hs.curU k hk

/-- **C62**, cursors: after any legal history of selects ending at a terminal node, `data_unchecked(k)` of a present
key runs `E.curU`; and, for expressions without `multi_union` outside of `multi_intersection` (flag `true`), if the last
select was a checked one, `data(k)` runs `E.cur`. Selecting runs no closures. -/
theorem C62_cursor (h : EBuilt x I s E V) :
    ∃ B, MaskSpec (width I.base.N) I.base.D I.base.exact
        (fun k => if E.present k then some () else none) B ∧ ∃ c0, I.base.new s = .ok c0 ∧
      ∀ moves last, LegalMoves (width I.base.N) I.base.D B none (moves ++ [last]) →
        ∃ masks c p, runMoves I.base s c0 (moves ++ [last]) = .ok (masks, c) ∧
          MasksAre I.base.N B masks (movePaths none (moves ++ [last])) ∧
          (movePaths none (moves ++ [last])).getLast? = some p ∧
          (p.length + 1 = I.base.D → ∀ k, k < width I.base.N →
            (E.present (unpath (width I.base.N) (p ++ [k])) = true →
              I.curDataU c s k = E.curU (unpath (width I.base.N) (p ++ [k]))) ∧
            (x = true → last.checked = true →
              I.curData c s k = E.cur (unpath (width I.base.N) (p ++ [k])))) := by
  obtain ⟨T, K, L, LC⟩ : ∃ T K, ELaw I s T K E ∧ (x = true → ELawC I s T K E) := by
    obtain ⟨h1, h2⟩ := ebuilt_law h
    cases x with
    | false =>
      obtain ⟨T, K, L⟩ := h1
      exact ⟨T, K, L, fun e => by cases e⟩
    | true =>
      obtain ⟨T, K, L⟩ := h2 rfl
      exact ⟨T, K, L.toELaw, fun _ => L⟩
  have hc : ∀ i, i < width I.base.N ^ I.base.D → T.content (path (width I.base.N) I.base.D i) =
      (fun k => if E.present k then some () else none) i := by
    intro k hk
    have := L.present_eq _ (path_lt I.base.D hk) (path_length _ _ _)
    rw [unpath_path _ _ _ hk] at this
    show _ = if E.present k then some () else none
    rw [this]
    cases T.content (path (width I.base.N) I.base.D k) <;> rfl
  obtain ⟨c0, e0, h0⟩ := L.base.new_ok
  refine ⟨T.bits, maskSpec L.base.wf hc, c0, e0, fun moves last hl => ?_⟩
  obtain ⟨masks, c, e1, h1, h2⟩ := moves_spec L.base _ c0 none h0 (fun p e => by cases e) hl
  have hne : ∀ (pos : Option (List Nat)) (l : List Move),
      ∃ p, (movePaths pos (l ++ [last])).getLast? = some p := by
    intro pos l
    cases hp : (movePaths pos (l ++ [last])).getLast? with
    | some p => exact ⟨p, rfl⟩
    | none =>
      rw [List.getLast?_eq_none_iff] at hp
      cases l <;> simp [movePaths] at hp
  obtain ⟨p, hp⟩ := hne none moves
  refine ⟨masks, c, p, e1, h1, hp, fun hd k hk => ?_⟩
  obtain ⟨g1, g2, g3⟩ := h2 last moves p rfl hp
  refine ⟨fun hpr => ?_, fun hx hch => ?_⟩
  · refine L.curDataU_eq c p k g1 g2 hk hd ?_
    rw [← L.present_eq _ (ValidPath.append g2 hk) (by simpa using hd)]; exact hpr
  · exact (LC hx).curData_eq c p k (g3 hch) g2 hk hd

end

/-! ## The important shapes, in terms of the closures alone

`A`, `B`, `M` are the maps of sources without closures. -/

section
variable {x : Bool} {S C σ δ ε : Type} {I : Impl S C δ} {a : S} {A : Nat → Option δ}

theorem leafU {M : Nat → Option δ} {k : Nat} {v : δ} (h : M k = some v) :
    (EM.lift (unwrapU (M k)) : EM σ δ) = pure v := by rw [h]; rfl

/-- Running over the keys of a map. -/
theorem elements_leaf (n : Nat) (M : Nat → Option δ) (E : ESpec σ ε) (act : Nat → δ → EM σ ε)
    (hp : ∀ k, E.present k = (M k).isSome) (hc : ∀ k v, M k = some v → E.curU k = act k v) :
    elements n E = (listing n M).map (fun e => (e.1, act e.1 e.2)) := by
  unfold elements listing
  have : ∀ l : List Nat, (l.filter E.present).map (fun k => (k, E.curU k)) =
      (l.filterMap (fun i => (M i).map (fun d => (i, d)))).map (fun e => (e.1, act e.1 e.2)) := by
    intro l
    induction l with
    | nil => rfl
    | cons k l ih =>
      cases hk : M k with
      | none => have := hp k; rw [hk] at this; simp [this, hk, ih]
      | some v => have := hp k; rw [hk] at this; simp [this, hk, ih, hc k v hk]
  exact this _

/-- `map(a, f)`, with its specification. -/
theorem map_ebuilt {V : ε → Prop} (ha : Built x I a A) (f : δ → EM σ ε)
    (hf : ∀ k v, A k = some v → Total V (f v)) :
    EBuilt x (emap (eleaf I) f) a (mapE (leafE A) f) V :=
  .map f (.leaf ha) fun d ⟨k, hk⟩ => hf k d hk

/-- **C62**, `map`: `n` calls of `next` run `f` on the values of the first `n` elements in key order, each once. -/
theorem C62_map_next {V : ε → Prop} (ha : Built x I a A) (f : δ → EM σ ε)
    (hf : ∀ k v, A k = some v → Total V (f v)) :
    ∃ F, ∀ fuel, F ≤ fuel → ∀ n z, (emap (eleaf I) f).run a fuel n z =
      runElements n ((listing (width I.N ^ I.D) A).map (fun e => (e.1, f e.2))) z := by
  obtain ⟨F, hF⟩ := C62_next (map_ebuilt ha f hf)
  refine ⟨F, fun fuel hl n z => ?_⟩
  rw [hF fuel hl n z]
  show runElements n (elements (width I.N ^ I.D) _) z = _
  rw [elements_leaf (width I.N ^ I.D) A (mapE (leafE A) f) (fun _ v => f v) (fun _ => rfl)]
  intro k v h
  show EM.lift (unwrapU (A k)) >>= f = _
  rw [leafU h, EM.pure_bind]

/-- **C62**, `map` of an expression with closures of its own (such as another `map`): for each element first the
closures below, then, unless they panicked, `g` on their result. -/
theorem C62_map_nested {J : EImpl S C σ δ} {s : S} {E : ESpec σ δ} {V : δ → Prop} {V' : ε → Prop}
    (h : EBuilt x J s E V) (g : δ → EM σ ε) (hg : ∀ d, V d → Total V' (g d)) :
    ∃ F, ∀ fuel, F ≤ fuel → ∀ n z, (emap J g).run s fuel n z =
      runElements n ((elements (width J.base.N ^ J.base.D) E).map (fun e => (e.1, do
        let d ← e.2
        g d))) z := by
  obtain ⟨F, hF⟩ := C62_next (.map g h hg)
  refine ⟨F, fun fuel hl n z => (hF fuel hl n z).trans ?_⟩
  unfold elements
  rw [List.map_map]
  rfl

/-- The closure `g`, recording its arguments. -/
def logged (g : δ → Outcome ε) (v : δ) : EM (List δ) ε := fun log => .ok (g v, log ++ [v])

theorem logged_total (g : δ → Outcome ε) (v : δ) : Total (fun _ => True) (logged g v) :=
  fun log => ⟨g v, log ++ [v], rfl, fun _ _ => trivial⟩

/-- The outcome of the `j`-th call of `next` on `map(s, g)`, `s` having the elements `l`. -/
def mapOutcome (g : δ → Outcome ε) (l : List (Nat × δ)) (j : Nat) : Outcome (Option (Nat × ε)) :=
  match l[j]? with
  | none => .returned none
  | some (k, v) =>
    match g v with
    | .returned w => .returned (some (k, w))
    | .panicked => .panicked

theorem runElements_logged (g : δ → Outcome ε) : ∀ (n : Nat) (l : List (Nat × δ)) (log : List δ),
    runElements n (l.map (fun e => (e.1, logged g e.2))) log =
      .ok ((List.range n).map (mapOutcome g l), log ++ (l.map (·.2)).take n)
  | 0, l, log => by cases l <;> simp [runElements]
  | n + 1, [], log => by
    simp only [List.map_nil, runElements, List.take_nil, List.append_nil]
    congr 2
    apply List.ext_getElem
    · simp
    · intro i h1 h2
      simp [mapOutcome]
  | n + 1, (k, v) :: l, log => by
    have ih := runElements_logged g n l (log ++ [v])
    simp only [List.map_cons, runElements, logged, bind_ok]
    have hr : (List.range (n + 1)).map (mapOutcome g ((k, v) :: l)) =
        mapOutcome g ((k, v) :: l) 0 :: (List.range n).map (mapOutcome g l) := by
      rw [List.range_succ_eq_map, List.map_cons, List.map_map]
      rfl
    rw [hr, ih]
    cases hg : g v <;> simp [mapOutcome, hg]

/-- **C62**, the calls of `map`: `n` calls of `next` on `map(a, g)` call `g` on the values of the
first `n` elements, in key order, each once, and on nothing else; the `j`-th call returns the `j`-th key
with `g` of its value, or unwinds if `g` panics there. So a caught panic loses that one element
and no other. -/
theorem C62_map_calls (ha : Built x I a A) (g : δ → Outcome ε) :
    ∃ F, ∀ fuel, F ≤ fuel → ∀ n, (emap (eleaf I) (logged g)).run a fuel n [] =
      .ok ((List.range n).map (mapOutcome g (listing (width I.N ^ I.D) A)),
        ((listing (width I.N ^ I.D) A).map (·.2)).take n) := by
  obtain ⟨F, hF⟩ := C62_map_next ha (logged g) fun _ v _ => logged_total g v
  refine ⟨F, fun fuel hf n => ?_⟩
  rw [hF fuel hf n [], runElements_logged]
  rfl

/-- **C62**, `map` and `get`: `f` runs once, on the value at the key, if the key is present, and not
at all if it is absent. -/
theorem C62_map_get {V : ε → Prop} (ha : Built x I a A) (f : δ → EM σ ε)
    (hf : ∀ k v, A k = some v → Total V (f v)) (k : Nat) (hk : k < width I.N ^ I.D) (hu : k < 2 ^ 64 - 1) :
    (emap (eleaf I) f).get a k =
      match A k with
      | none => return none
      | some v => do
        let w ← f v
        return some w := by
  funext z
  rw [C62_get (map_ebuilt ha f hf), if_pos (by show k < min (width I.N ^ I.D) _; omega)]
  show (pure (A k) >>= applyE f) z = _
  rw [EM.pure_bind]
  cases A k <;> rfl

section
variable {S' C' δ' ε' : Type} {J : Impl S' C' δ'} {b : S'} {B : Nat → Option δ'} {V : ε → Prop}
  {V' : ε' → Prop}

/-- **C62**, `union` and `get`: `get` on `union(map(a, f), map(b, g))` runs `f` if `a` has the key, then, unless `f`
panicked, `g` if `b` has it. -/
theorem C62_union_order (hN : I.N = J.N) (hD : I.D = J.D)
    (ha : Built true I a A) (hb : Built true J b B) (f : δ → EM σ ε) (g : δ' → EM σ ε')
    (hf : ∀ k v, A k = some v → Total V (f v)) (hg : ∀ k v, B k = some v → Total V' (g v)) (k : Nat)
    (hk : k < width I.N ^ I.D) (hu : k < 2 ^ 64 - 1) :
    (eunion (emap (eleaf I) f) (emap (eleaf J) g)).get (a, b) k = (do
      let v ← applyE f (A k)
      let w ← applyE g (B k)
      return eitherOf v w) := by
  funext z
  rw [C62_get (.union (I0 := emap (eleaf I) f) (I1 := emap (eleaf J) g) hN hD (map_ebuilt ha f hf)
    (map_ebuilt hb g hg)), if_pos (by show k < min (width I.N ^ I.D) _; omega)]
  simp only [unionE, mapE, leafE, pairE, EM.bind_assoc, EM.pure_bind]

/-- **C62**, `union` in iteration: `n` calls of `next` on `union(map(a, f), map(b, g))` do that for the
first `n` keys of either tree, in key order. -/
theorem C62_union_next (hN : I.N = J.N) (hD : I.D = J.D)
    (ha : Built true I a A) (hb : Built true J b B) (f : δ → EM σ ε) (g : δ' → EM σ ε')
    (hf : ∀ k v, A k = some v → Total V (f v)) (hg : ∀ k v, B k = some v → Total V' (g v)) :
    ∃ F, ∀ fuel, F ≤ fuel → ∀ n z,
      (eunion (emap (eleaf I) f) (emap (eleaf J) g)).run (a, b) fuel n z =
        runElements n ((listing (width I.N ^ I.D) (unionMap A B)).map (fun e => (e.1, do
          let v ← applyE f e.2.1
          let w ← applyE g e.2.2
          return (v, w)))) z := by
  obtain ⟨F, hF⟩ := C62_next (.union (I0 := emap (eleaf I) f) (I1 := emap (eleaf J) g) hN hD
    (map_ebuilt ha f hf) (map_ebuilt hb g hg))
  refine ⟨F, fun fuel hl n z => (hF fuel hl n z).trans ?_⟩
  show runElements n (elements (width I.N ^ I.D) _) z = _
  rw [elements_leaf (width I.N ^ I.D) (unionMap A B) _ (fun _ e => do
    let v ← applyE f e.1
    let w ← applyE g e.2
    return (v, w))]
  · intro k
    show ((A k).isSome || (B k).isSome) = _
    cases hA : A k <;> cases hB : B k <;> simp [unionMap, hA, hB]
  · intro k e he
    simp only [unionE, mapE, leafE, pairE, EM.bind_assoc, EM.pure_bind]
    cases hA : A k with
    | none =>
      cases hB : B k with
      | none => simp [unionMap, hA, hB] at he
      | some u =>
        simp only [unionMap, hA, hB, Option.some.injEq] at he
        subst he
        simp only [applyE, EM.pure_bind, EM.bind_assoc]
        rfl
    | some v =>
      cases hB : B k with
      | none =>
        simp only [unionMap, hA, hB, Option.some.injEq] at he
        subst he
        simp only [applyE, EM.pure_bind, EM.bind_assoc]
        rfl
      | some u =>
        simp only [unionMap, hA, hB, Option.some.injEq] at he
        subst he
        simp only [applyE, EM.pure_bind, EM.bind_assoc]
        rfl

/-- **C62**, `intersection` and `get`: `get` on `intersection(map(a, f), map(b, g))` runs `f` if `a` has the key and then,
unless `f` panicked, `g` if `b` has it – also when the other tree does not have the key, so that the answer is `None`
and the result of the closure is dropped (`C62_inter_fails`). -/
theorem C62_inter_order (hN : I.N = J.N) (hD : I.D = J.D)
    (ha : Built x I a A) (hb : Built x J b B) (f : δ → EM σ ε) (g : δ' → EM σ ε')
    (hf : ∀ k v, A k = some v → Total V (f v)) (hg : ∀ k v, B k = some v → Total V' (g v)) (k : Nat)
    (hk : k < width I.N ^ I.D) (hu : k < 2 ^ 64 - 1) :
    (einter (emap (eleaf I) f) (emap (eleaf J) g)).get (a, b) k = (do
      let v ← applyE f (A k)
      let w ← applyE g (B k)
      return bothOf v w) := by
  funext z
  rw [C62_get (.inter (I0 := emap (eleaf I) f) (I1 := emap (eleaf J) g) hN hD (map_ebuilt ha f hf)
    (map_ebuilt hb g hg)), if_pos (by show k < min (width I.N ^ I.D) _; omega)]
  simp only [interE, mapE, leafE, pairE, EM.bind_assoc, EM.pure_bind]

/-- **C62**, `intersection` in iteration: `f`, then, unless it panicked, `g`, at the common keys only. -/
theorem C62_inter_next (hN : I.N = J.N) (hD : I.D = J.D)
    (ha : Built x I a A) (hb : Built x J b B) (f : δ → EM σ ε) (g : δ' → EM σ ε')
    (hf : ∀ k v, A k = some v → Total V (f v)) (hg : ∀ k v, B k = some v → Total V' (g v)) :
    ∃ F, ∀ fuel, F ≤ fuel → ∀ n z,
      (einter (emap (eleaf I) f) (emap (eleaf J) g)).run (a, b) fuel n z =
        runElements n ((listing (width I.N ^ I.D) (interMap A B)).map (fun e => (e.1, do
          let v ← f e.2.1
          let w ← g e.2.2
          return (v, w)))) z := by
  obtain ⟨F, hF⟩ := C62_next (.inter (I0 := emap (eleaf I) f) (I1 := emap (eleaf J) g) hN hD
    (map_ebuilt ha f hf) (map_ebuilt hb g hg))
  refine ⟨F, fun fuel hl n z => (hF fuel hl n z).trans ?_⟩
  show runElements n (elements (width I.N ^ I.D) _) z = _
  rw [elements_leaf (width I.N ^ I.D) (interMap A B) _ (fun _ e => do
    let v ← f e.1
    let w ← g e.2
    return (v, w))]
  · intro k
    show ((A k).isSome && (B k).isSome) = _
    cases hA : A k <;> cases hB : B k <;> simp [interMap, hA, hB]
  · intro k e he
    cases hA : A k with
    | none => simp [interMap, hA] at he
    | some v =>
      cases hB : B k with
      | none => simp [interMap, hA, hB] at he
      | some u =>
        simp only [interMap, hA, hB, Option.some.injEq] at he
        subst he
        simp only [interE, mapE, leafE, pairE, EM.bind_assoc, hA, hB, unwrapU, EM.lift_ok, EM.pure_bind]

end

/-! ### `multi_map_fold` over `multi_union` and `multi_intersection` of mapped trees -/

section
variable {β : Type} {ss : List S} {M : S → Nat → Option δ} {V : ε → Prop} {W : β → Prop} {conv : δ → EM σ ε}
  {init : EM σ β} {f : β → ε → EM σ β}

/-- The values at key `k`, in source order. -/
def valuesAt (ss : List S) (M : S → Nat → Option δ) (k : Nat) : List δ := ss.filterMap (fun s => M s k)

/-- Convert and fold alternately. -/
def foldLazy (conv : δ → EM σ ε) (init : EM σ β) (f : β → ε → EM σ β) (vs : List δ) : EM σ β := do
  let b ← init
  vs.foldlM (fun b v => do
    let w ← conv v
    f b w) b

/-- Convert everything, then fold. -/
def foldEager (conv : δ → EM σ ε) (init : EM σ β) (f : β → ε → EM σ β) (vs : List δ) : EM σ β := do
  let ws ← vs.mapM conv
  let b ← init
  ws.foldlM f b

theorem foldS_ready (f : β → ε → EM σ β) : ∀ (ws : List ε) (b : β), (Strm.ready ws).fold f b = ws.foldlM f b
  | [], b => rfl
  | w :: ws, b => by
    show (pure (some w) >>= _ : EM σ β) = _
    rw [EM.pure_bind, List.foldlM_cons]
    exact EM.bind_congr fun b => foldS_ready f ws b

theorem foldS_lazy (conv : δ → EM σ ε) (f : β → ε → EM σ β) : ∀ (os : List (Option δ)) (b : β),
    Strm.fold f b (os.map (applyE conv)) = (os.filterMap id).foldlM (fun b v => do
      let w ← conv v
      f b w) b
  | [], b => rfl
  | none :: os, b => by
    show (pure none >>= _ : EM σ β) = _
    rw [EM.pure_bind]
    exact foldS_lazy conv f os b
  | some v :: os, b => by
    show ((conv v >>= fun e => pure (some e)) >>= _ : EM σ β) = _
    rw [EM.bind_assoc]
    show _ = (v :: os.filterMap id).foldlM _ b
    rw [List.foldlM_cons, EM.bind_assoc]
    refine EM.bind_congr fun w => ?_
    rw [EM.pure_bind]
    exact EM.bind_congr fun b => foldS_lazy conv f os b

theorem askAll_apply (conv : δ → EM σ ε) : ∀ (os : List (Option δ)),
    askAll (os.map (applyE conv)) = (os.filterMap id).mapM conv
  | [] => rfl
  | none :: os => by
    show (pure none >>= _ : EM σ (List ε)) = _
    rw [EM.pure_bind, askAll_apply conv os]
    show _ >>= (fun ds => pure ([] ++ ds)) = _
    simp only [List.nil_append]
    exact EM.bind_pure _
  | some v :: os => by
    show ((conv v >>= fun e => pure (some e)) >>= _ : EM σ (List ε)) = (v :: os.filterMap id).mapM conv
    rw [EM.bind_assoc, List.mapM_cons]
    refine EM.bind_congr fun w => ?_
    rw [EM.pure_bind, askAll_apply conv os]
    rfl

theorem mu_ebuilt (hcfg : ValidCfg I.N I.D) (hD : 2 ≤ I.D) (hcap : ss.length ≤ 32)
    (h : ∀ s ∈ ss, Built true I s (M s)) (hc : ∀ s ∈ ss, ∀ k v, M s k = some v → Total V (conv v))
    (hi : Total W init) (hf : ∀ b w, W b → V w → Total W (f b w)) :
    EBuilt false (efold (emultiUnion (emap (eleaf I) conv)) init f) ss
      (foldE (multiUnionE (width I.N) (ss.map fun s => mapE (leafE (M s)) conv)) init f) W :=
  .fold init f (.multiUnion (fun s => mapE (leafE (M s)) conv) hcfg hD hcap
    (fun s hs => map_ebuilt (h s hs) conv (hc s hs))) hi hf

/-- **C62**, `multi_map_fold(multi_union(maps), init, f)` in iteration: for each key, in key order, `init`, then for
each source that has the key, in source order, the conversion of its value followed at once by `f`. -/
theorem C62_fold_union_next (hcfg : ValidCfg I.N I.D) (hD : 2 ≤ I.D) (hcap : ss.length ≤ 32)
    (h : ∀ s ∈ ss, Built true I s (M s)) (hc : ∀ s ∈ ss, ∀ k v, M s k = some v → Total V (conv v))
    (hi : Total W init) (hf : ∀ b w, W b → V w → Total W (f b w)) :
    ∃ F, ∀ fuel, F ≤ fuel → ∀ n z, (efold (emultiUnion (emap (eleaf I) conv)) init f).run ss fuel n z =
      runElements n ((listing (width I.N ^ I.D) (multiUnionMap (ss.map M))).map
        (fun e => (e.1, foldLazy conv init f e.2))) z := by
  obtain ⟨F, hF⟩ := C62_next (mu_ebuilt hcfg hD hcap h hc hi hf)
  refine ⟨F, fun fuel hl n z => (hF fuel hl n z).trans ?_⟩
  show runElements n (elements (width I.N ^ I.D) _) z = _
  have hvals : ∀ k, (ss.map M).filterMap (fun m => m k) = valuesAt ss M k := by
    intro k; unfold valuesAt; rw [List.filterMap_map]; rfl
  have hWpos : 0 < width I.N := by
    have := hcfg.words; unfold width; omega
  rw [elements_leaf (width I.N ^ I.D) (multiUnionMap (ss.map M)) _ (fun _ vs => foldLazy conv init f vs)]
  · intro k
    show (ss.map fun s => mapE (leafE (M s)) conv).any _ = _
    rw [List.any_map]
    unfold multiUnionMap
    rw [hvals]
    show ss.any (fun s => (M s k).isSome) = _
    unfold valuesAt
    clear h hc hcap hF hvals
    induction ss with
    | nil => rfl
    | cons s ss ih =>
      rw [List.any_cons, List.filterMap_cons]
      cases hk : M s k with
      | none => simpa [hk] using ih
      | some v => simp
  · intro k vs hvs
    have hvs' : vs = valuesAt ss M k := by
      unfold multiUnionMap at hvs
      rw [hvals] at hvs
      cases hv : valuesAt ss M k with
      | nil => rw [hv] at hvs; cases hvs
      | cons v l => rw [hv] at hvs; cases hvs; rfl
    subst hvs'
    simp only [foldE, multiUnionE, foldLazy, EM.pure_bind]
    refine EM.bind_congr fun b => ?_
    rw [List.filter_map, List.map_map]
    have e : ∀ l : List S, (l.filter ((fun A : ESpec σ ε => blockPresent (width I.N) A k) ∘
        fun s => mapE (leafE (M s)) conv)).map ((fun A : ESpec σ ε => A.cur k) ∘
          fun s => mapE (leafE (M s)) conv) =
        ((l.filter ((fun A : ESpec σ ε => blockPresent (width I.N) A k) ∘
          fun s => mapE (leafE (M s)) conv)).map (fun s => M s k)).map (applyE conv) := by
      intro l
      rw [List.map_map]
      refine List.map_congr_left fun s _ => ?_
      show pure (M s k) >>= applyE conv = _
      rw [EM.pure_bind]; rfl
    rw [e ss, foldS_lazy]
    congr 1
    rw [List.filterMap_map]
    show (ss.filter _).filterMap (fun s => M s k) = valuesAt ss M k
    refine filterMap_filter_of_none _ _ _ fun s _ hb => ?_
    cases hk : M s k with
    | none => rfl
    | some v =>
      exfalso
      have := block_self (A := mapE (leafE (M s)) conv) hWpos
        (show (leafE (σ := σ) (M s)).present k = true from by show (M s k).isSome = true; rw [hk]; rfl)
      rw [show blockPresent (width I.N) (mapE (leafE (M s)) conv) k = false from hb] at this
      cases this

/-- **C62**, the same and `get`: nothing runs at an absent key; otherwise first all conversions, then `init`, then the
steps of `f`. -/
theorem C62_fold_union_get (hcfg : ValidCfg I.N I.D) (hD : 2 ≤ I.D) (hcap : ss.length ≤ 32)
    (h : ∀ s ∈ ss, Built true I s (M s)) (hc : ∀ s ∈ ss, ∀ k v, M s k = some v → Total V (conv v))
    (hi : Total W init) (hf : ∀ b w, W b → V w → Total W (f b w)) (k : Nat)
    (hk : k < width I.N ^ I.D) (hu : k < 2 ^ 64 - 1) :
    (efold (emultiUnion (emap (eleaf I) conv)) init f).get ss k =
      if (valuesAt ss M k).isEmpty then return none
      else do
        let b ← foldEager conv init f (valuesAt ss M k)
        return some b := by
  funext z
  rw [C62_get (mu_ebuilt hcfg hD hcap h hc hi hf), if_pos (by show k < min (width I.N ^ I.D) _; omega)]
  simp only [foldE, multiUnionE, List.map_map]
  have e : ss.map ((fun A : ESpec σ ε => A.get k) ∘ fun s => mapE (leafE (M s)) conv) =
      (ss.map (fun s => M s k)).map (applyE conv) := by
    rw [List.map_map]
    refine List.map_congr_left fun s _ => ?_
    show pure (M s k) >>= applyE conv = _
    rw [EM.pure_bind]; rfl
  rw [e, askAll_apply, List.filterMap_map]
  show ((((valuesAt ss M k).mapM conv >>= _) >>= _ : EM σ _) z) = _
  cases hv : valuesAt ss M k with
  | nil => rfl
  | cons v vs =>
    simp only [foldEager, List.mapM_cons, EM.bind_assoc, EM.pure_bind, List.isEmpty_cons, Bool.false_eq_true,
      if_false, applyE, foldS_ready]

theorem takeWhile_all {p : S → Bool} : ∀ (l : List S), l.all p = true → l.takeWhile p = l
  | [], _ => rfl
  | a :: l, h => by
    rw [List.all_cons, Bool.and_eq_true] at h
    rw [List.takeWhile_cons, h.1, takeWhile_all l h.2]
    rfl

/-- The values at `k` of the sources before the first one that does not have it. -/
def valuesUntil (ss : List S) (M : S → Nat → Option δ) (k : Nat) : List δ :=
  valuesAt (ss.takeWhile (fun s => (M s k).isSome)) M k

theorem mi_ebuilt (hne : ss ≠ []) (hcap : ss.length ≤ 32)
    (h : ∀ s ∈ ss, Built false I s (M s)) (hc : ∀ s ∈ ss, ∀ k v, M s k = some v → Total V (conv v))
    (hi : Total W init) (hf : ∀ b w, W b → V w → Total W (f b w)) :
    EBuilt true (efold (emultiInter (emap (eleaf I) conv)) init f) ss
      (foldE (multiInterE (ss.map fun s => mapE (leafE (M s)) conv)) init f) W :=
  .fold init f (.multiInter (fun s => mapE (leafE (M s)) conv) hne hcap
    (fun s hs => map_ebuilt (h s hs) conv (hc s hs))) hi hf

/-- **C62**, `multi_map_fold(multi_intersection(maps), init, f)` in iteration: as for `multi_union`, at the common keys. -/
theorem C62_fold_inter_next (hne : ss ≠ []) (hcap : ss.length ≤ 32)
    (h : ∀ s ∈ ss, Built false I s (M s)) (hc : ∀ s ∈ ss, ∀ k v, M s k = some v → Total V (conv v))
    (hi : Total W init) (hf : ∀ b w, W b → V w → Total W (f b w)) :
    ∃ F, ∀ fuel, F ≤ fuel → ∀ n z, (efold (emultiInter (emap (eleaf I) conv)) init f).run ss fuel n z =
      runElements n ((listing (width I.N ^ I.D) (multiInterMap (ss.map M))).map
        (fun e => (e.1, foldLazy conv init f e.2))) z := by
  obtain ⟨F, hF⟩ := C62_next (mi_ebuilt hne hcap h hc hi hf)
  refine ⟨F, fun fuel hl n z => (hF fuel hl n z).trans ?_⟩
  show runElements n (elements (width I.N ^ I.D) _) z = _
  have hmi : ∀ k, multiInterMap (ss.map M) k =
      if ss.all (fun s => (M s k).isSome) = true then some (valuesAt ss M k) else none := by
    intro k
    unfold multiInterMap valuesAt
    rw [List.all_map, List.filterMap_map]
    rfl
  rw [elements_leaf (width I.N ^ I.D) (multiInterMap (ss.map M)) _ (fun _ vs => foldLazy conv init f vs)]
  · intro k
    show (ss.map fun s => mapE (leafE (M s)) conv).all _ = _
    rw [hmi k, List.all_map]
    show ss.all (fun s => (M s k).isSome) = _
    cases ss.all (fun s => (M s k).isSome) <;> rfl
  · intro k vs hvs
    rw [hmi k] at hvs
    by_cases hb : ss.all (fun s => (M s k).isSome) = true
    · rw [if_pos hb] at hvs
      cases hvs
      simp only [foldE, multiInterE, foldLazy, EM.pure_bind]
      refine EM.bind_congr fun b => ?_
      rw [List.map_map]
      have e : ss.map ((fun A : ESpec σ ε => someE (A.curU k)) ∘ fun s => mapE (leafE (M s)) conv) =
          (ss.map (fun s => M s k)).map (applyE conv) := by
        rw [List.map_map]
        refine List.map_congr_left fun s hs => ?_
        obtain ⟨v, hv⟩ := Option.isSome_iff_exists.1 (List.all_eq_true.1 hb s hs)
        show someE (EM.lift (unwrapU (M s k)) >>= conv) = applyE conv (M s k)
        rw [leafU hv, EM.pure_bind, hv]; rfl
      rw [e, foldS_lazy, List.filterMap_map]
      rfl
    · rw [if_neg hb] at hvs
      cases hvs

theorem askWhile_apply (conv : δ → EM σ ε) (k : Nat) : ∀ (ss : List S),
    askWhile (ss.map (fun s => applyE conv (M s k))) = do
      let ws ← (valuesUntil ss M k).mapM conv
      return if ss.all (fun s => (M s k).isSome) then some ws else none
  | [] => by simp [askWhile, valuesUntil, valuesAt]
  | s :: ss => by
    cases hk : M s k with
    | none => simp [askWhile, valuesUntil, valuesAt, hk, applyE]
    | some v =>
      have ih := askWhile_apply conv k ss
      have e : valuesUntil (s :: ss) M k = v :: valuesUntil ss M k := by
        simp [valuesUntil, valuesAt, hk]
      have e1 : applyE conv (some v) = conv v >>= fun w => pure (some w) := rfl
      simp only [List.map_cons, askWhile, e1, ih, hk, EM.bind_assoc, EM.pure_bind, e, List.mapM_cons,
        List.all_cons, Option.isSome_some, Bool.true_and]
      refine EM.bind_congr fun w => EM.bind_congr fun ws => ?_
      split <;> rfl

/-- **C62**, the same and `get`: the conversions run for the sources before the first one without the key – also if
there is one, so that the answer is `None` –, then, if all have the key, `init` and the steps of `f`. -/
theorem C62_fold_inter_get (hne : ss ≠ []) (hcap : ss.length ≤ 32)
    (h : ∀ s ∈ ss, Built false I s (M s)) (hc : ∀ s ∈ ss, ∀ k v, M s k = some v → Total V (conv v))
    (hi : Total W init) (hf : ∀ b w, W b → V w → Total W (f b w)) (k : Nat)
    (hk : k < width I.N ^ I.D) (hu : k < 2 ^ 64 - 1) :
    (efold (emultiInter (emap (eleaf I) conv)) init f).get ss k =
      if ss.all (fun s => (M s k).isSome) then do
        let b ← foldEager conv init f (valuesAt ss M k)
        return some b
      else do
        let _ ← (valuesUntil ss M k).mapM conv
        return none := by
  funext z
  rw [C62_get (mi_ebuilt hne hcap h hc hi hf), if_pos (by show k < min (width I.N ^ I.D) _; omega)]
  simp only [foldE, multiInterE, List.map_map]
  have e : ss.map ((fun A : ESpec σ ε => A.get k) ∘ fun s => mapE (leafE (M s)) conv) =
      ss.map (fun s => applyE conv (M s k)) := by
    refine List.map_congr_left fun s _ => ?_
    show pure (M s k) >>= applyE conv = _
    rw [EM.pure_bind]
  rw [e, askWhile_apply]
  by_cases hb : ss.all (fun s => (M s k).isSome) = true
  · have hu : valuesUntil ss M k = valuesAt ss M k := by
      unfold valuesUntil
      congr 1
      exact takeWhile_all _ hb
    simp only [hb, if_true, hu, foldEager, EM.bind_assoc, EM.pure_bind, Option.map_some, applyE, foldS_ready]
  · simp only [hb, if_false, EM.bind_assoc, EM.pure_bind, Option.map_none, applyE]
    rfl

end
end

/-! ## Concrete cases -/

/-- The closure panics on 72. -/
def exClosure (v : Nat) : Outcome Nat := if v = 72 then .panicked else .returned (v + 1)

/-- A logged closure for the left and the right source. -/
def loggedL (v : Nat) : EM (List (Nat ⊕ Nat)) Nat := fun log => .ok (.returned (v + 1), log ++ [.inl v])
@[inherit_doc loggedL]
def loggedR (v : Nat) : EM (List (Nat ⊕ Nat)) Nat :=
  fun log => .ok (if v = 3 then .panicked else .returned v, log ++ [.inr v])

theorem loggedL_total (v : Nat) : Total (fun _ => True) (loggedL v) := fun _ => ⟨_, _, rfl, fun _ _ => trivial⟩
theorem loggedR_total (v : Nat) : Total (fun _ => True) (loggedR v) := fun _ => ⟨_, _, rfl, fun _ _ => trivial⟩

/-- `union(map(exD, ..), map(exU, ..))` and `intersection(..)`. -/
abbrev exEUnion := eunion (emap (eleaf (Dense.impl Nat 2)) loggedL) (emap (eleaf (Sparse.impl Nat 1 2)) loggedR)
@[inherit_doc exEUnion]
abbrev exEInter := einter (emap (eleaf (Dense.impl Nat 2)) loggedL) (emap (eleaf (Sparse.impl Nat 1 2)) loggedR)

example : ∃ V, EBuilt true exEUnion (exD, exU) (unionE (mapE (leafE exDM) loggedL) (mapE (leafE exUM) loggedR)) V :=
  ⟨_, EBuilt.union (I0 := emap (eleaf (Dense.impl Nat 2)) loggedL)
    (I1 := emap (eleaf (Sparse.impl Nat 1 2)) loggedR) rfl rfl (map_ebuilt exD_built loggedL fun _ v _ => loggedL_total v)
    (map_ebuilt exU_built loggedR fun _ v _ => loggedR_total v)⟩

theorem exEInter_built : EBuilt true exEInter (exD, exU)
    (interE (mapE (leafE exDM) loggedL) (mapE (leafE exUM) loggedR)) (fun _ => True ∧ True) :=
  EBuilt.inter (I0 := emap (eleaf (Dense.impl Nat 2)) loggedL)
    (I1 := emap (eleaf (Sparse.impl Nat 1 2)) loggedR) rfl rfl (map_ebuilt exD_built loggedL fun _ v _ => loggedL_total v)
    (map_ebuilt exU_built loggedR fun _ v _ => loggedR_total v)

/-- **C62** is not "closures run only for elements of the tree": `get` on an intersection has run the closure of one
source on a key the other does not have (64: only in `exD`; 4095: only in `exU`, and that closure panics). -/
theorem C62_inter_fails : EBuilt true exEInter (exD, exU)
      (interE (mapE (leafE exDM) loggedL) (mapE (leafE exUM) loggedR)) (fun _ => True ∧ True) ∧
    exEInter.get (exD, exU) 64 [] = .ok (.returned none, [.inl 72]) ∧
    exEInter.get (exD, exU) 4095 [] = .ok (.panicked, [.inr 3]) := by
  refine ⟨exEInter_built, ?_, ?_⟩ <;> decide +kernel

/-- `C62_map_calls`, `C62_map_get`, `C62_get`: the tree of keys 5, 64, 200, the closure panicking on the value of 64. -/
example : (emap (eleaf (Dense.impl Nat 2)) (logged exClosure)).run exD 9 4 [] =
      .ok ([.returned (some (5, 57)), .panicked, .returned (some (200, 203)), .returned none], [56, 72, 202]) ∧
    (emap (eleaf (Dense.impl Nat 2)) (logged exClosure)).get exD 64 [] = .ok (.panicked, [72]) ∧
    (emap (eleaf (Dense.impl Nat 2)) (logged exClosure)).get exD 65 [] = .ok (.returned none, []) ∧
    (emap (eleaf (Dense.impl Nat 2)) (logged exClosure)).getU exD 5 [] = .ok (.returned 57, [56]) ∧
    (emap (eleaf (Dense.impl Nat 2)) (logged exClosure)).get exD 4096 [] = .error .panic := by decide +kernel

example : ∃ F, ∀ fuel, F ≤ fuel →
    (emap (eleaf (Dense.impl Nat 2)) (logged exClosure)).run exD fuel 4 [] =
      .ok ([.returned (some (5, 57)), .panicked, .returned (some (200, 203)), .returned none], [56, 72, 202]) := by
  obtain ⟨F, hF⟩ := C62_map_calls exD_built exClosure
  refine ⟨F, fun fuel hf => (hF fuel hf 4).trans ?_⟩
  have e : listing (width (Dense.impl Nat 2).N ^ (Dense.impl Nat 2).D) exDM =
      [(5, 56), (64, 72), (200, 202)] := by decide +kernel
  rw [e]
  rfl

/-- `C62_map_nested`: the outer closure is not called where the inner one panics. -/
example : (emap (emap (eleaf (Dense.impl Nat 2)) (logged exClosure)) (logged fun w => .returned (w, w))).run
    exD 9 4 [] = .ok ([.returned (some (5, (57, 57))), .panicked, .returned (some (200, (203, 203))),
      .returned none], [56, 57, 72, 202, 203]) := by decide +kernel

/-- `C62_union_order`, `C62_union_next`, `C62_inter_next`: at key 5 both closures, the left first. -/
example : exEUnion.get (exD, exU) 5 [] = .ok (.returned (some (some 57, some 2)), [.inl 56, .inr 2]) ∧
    exEUnion.run (exD, exU) 9 5 [] = .ok ([.returned (some (5, (some 57, some 2))),
      .returned (some (64, (some 73, none))), .returned (some (200, (some 203, none))), .panicked, .returned none],
      [.inl 56, .inr 2, .inl 72, .inl 202, .inr 3]) ∧
    exEInter.run (exD, exU) 9 2 [] = .ok ([.returned (some (5, (57, 2))), .returned none], [.inl 56, .inr 2]) := by
  decide +kernel

/-- A call of a `multi_map_fold` over maps. -/
inductive FoldCall where
  | conv (v : Nat)
  | init
  | step (b w : Nat)
deriving DecidableEq

/-- Conversion, `init` and `f`, logged. -/
def fConv (v : Nat) : EM (List FoldCall) Nat := fun log => .ok (.returned (v + 1000), log ++ [.conv v])
@[inherit_doc fConv]
def fInit : EM (List FoldCall) Nat := fun log => .ok (.returned 0, log ++ [.init])
@[inherit_doc fConv]
def fStep (b w : Nat) : EM (List FoldCall) Nat := fun log => .ok (.returned (b + w), log ++ [.step b w])

/-- `multi_map_fold(multi_union([map(exD, ..), map(exD, ..)]), ..)` and the same over `multi_intersection`. -/
abbrev exEFoldU := efold (emultiUnion (emap (eleaf (Dense.impl Nat 2)) fConv)) fInit fStep
@[inherit_doc exEFoldU]
abbrev exEFoldI := efold (emultiInter (emap (eleaf (Dense.impl Nat 2)) fConv)) fInit fStep

example : ∃ E W, EBuilt false exEFoldU [exD, exD] E W :=
  ⟨_, _, mu_ebuilt (V := fun _ => True) (W := fun _ => True) ⟨by decide, by decide, by decide⟩ (by decide)
    (by simp) (fun s hs => exDs_built s (by simp at hs ⊢; exact hs))
    (fun _ _ _ v _ => fun _ => ⟨_, _, rfl, fun _ _ => trivial⟩)
    (fun _ => ⟨_, _, rfl, fun _ _ => trivial⟩) (fun _ _ _ _ => fun _ => ⟨_, _, rfl, fun _ _ => trivial⟩)⟩

/-- `C62_fold_union_next`, `C62_fold_union_get`: iteration alternates, `get` converts first. -/
example : exEFoldU.run [exD, exD] 9 1 [] = .ok ([.returned (some (5, 2112))],
      [.init, .conv 56, .step 0 1056, .conv 56, .step 1056 1056]) ∧
    exEFoldU.get [exD, exD] 5 [] = .ok (.returned (some 2112),
      [.conv 56, .conv 56, .init, .step 0 1056, .step 1056 1056]) ∧
    exEFoldU.get [exD, exD] 6 [] = .ok (.returned none, []) := by decide +kernel

/-- An empty DenseTree beside `exD`. -/
def exEmpty : Dense.DT Nat :=
  match Dense.default Nat 2 with
  | .ok t => t
  | .error _ => exD

/-- `C62_fold_inter_next`, `C62_fold_inter_get`: the first source's conversion runs although the second tree is empty. -/
example : exEFoldI.run [exD, exD] 9 1 [] = .ok ([.returned (some (5, 2112))],
      [.init, .conv 56, .step 0 1056, .conv 56, .step 1056 1056]) ∧
    exEFoldI.get [exD, exEmpty] 5 [] = .ok (.returned none, [.conv 56]) ∧
    exEFoldI.get [exEmpty, exD] 5 [] = .ok (.returned none, []) ∧
    exEFoldI.run [exD, exEmpty] 9 1 [] = .ok ([.returned none], []) := by decide +kernel

/-- `C62_cursor`: at the terminal node of key 64, checked `data` of a key only `exD` has runs the left closure. -/
example : (do
    let c ← exEInter.base.new (exD, exU)
    let r ← runMoves exEInter.base (exD, exU) c [⟨true, 0, 0⟩, ⟨true, 1, 1⟩]
    exEInter.curData r.2 (exD, exU) 0 [] : R _) = .ok (.returned none, [.inl 72]) := by decide +kernel

end Hibit.Props
