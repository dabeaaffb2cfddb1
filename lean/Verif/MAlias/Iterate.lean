import Verif.MAlias.Select
/-!
# Iterating a `multi_union` with borrows
-/
namespace Hibit.MAlias
open Hibit
open Hibit.Typed (Rel)

/-- No bits are left. -/
def Quiet : BitsIter → Prop
  | .prim w => w = 0
  | .arr q => ∀ w ∈ q.iters, w = 0

theorem quiet_empty (N : Nat) : Quiet (BitsIter.empty N) := by
  unfold BitsIter.empty
  split
  · rfl
  · intro w hw
    exact (List.mem_replicate.1 hw).2

theorem quiet_into {m : Mask} (h : ∀ j, m.bit j = false) : Quiet (intoBitsIter m) := by
  have hz := (isZero_iff m).2 h
  unfold isZero at hz
  rw [List.all_eq_true] at hz
  have hz : ∀ w ∈ m, w = 0 := fun w hw => by simpa using hz w hw
  unfold intoBitsIter
  split
  · exact hz _ (by simp)
  · exact hz

theorem nextLoop_quiet : ∀ (fuel : Nat) (q : ArrayQueue) {o : Option Nat} {q' : ArrayQueue}, (∀ w ∈ q.iters, w = 0) →
    ArrayQueue.nextLoop fuel q = .ok (o, q') → o = none ∧ ∀ w ∈ q'.iters, w = 0
  | 0, q, o, q', _, e => by cases e
  | fuel + 1, q, o, q', hq, e => by
    unfold ArrayQueue.nextLoop at e
    obtain ⟨w, hw, e⟩ := bind_inv e
    have h0 : w = 0 := by
      unfold getP at hw
      split at hw
      · next x hx => cases hw; exact hq _ (List.mem_of_getElem? hx)
      · cases hw
    subst h0
    have hn : OneBitsIter.next (0 : Word) = (none, 0) := rfl
    rw [hn] at e
    simp only at e
    have hs : ∀ w ∈ q.iters.set 0 0, w = 0 := by
      intro w hw
      rcases List.mem_or_eq_of_mem_set hw with h | h
      · exact hq w h
      · exact h
    split at e
    · cases e
      exact ⟨rfl, hs⟩
    · obtain ⟨x, hx, e⟩ := bind_inv e
      have hx0 : x = 0 := hs x (List.mem_of_getElem? (getU_inv hx))
      refine nextLoop_quiet fuel _ ?_ e
      intro w hw
      rcases List.mem_or_eq_of_mem_set hw with h | h
      · exact hs w h
      · rw [h, hx0]

theorem quiet_next {it it' : BitsIter} {o : Option Nat} (h : Quiet it) (e : it.next = .ok (o, it')) : o = none ∧ Quiet it' := by
  cases it with
  | prim w =>
    have h : w = 0 := h
    subst h
    cases e
    exact ⟨rfl, rfl⟩
  | arr q =>
    simp only [BitsIter.next] at e
    obtain ⟨⟨o1, q1⟩, h1, e⟩ := bind_inv e
    cases e
    exact nextLoop_quiet _ _ h h1

theorem constForRev_sim {σ τ : Type} {deep : Prop} {Q : σ → τ → Prop} {v : σ → Nat → R (σ × Bool)} {w : τ → Nat → R (τ × Bool)}
    (frm : Nat) : ∀ (to : Nat) (s : σ) (t : τ),
      (∀ s t i, i < to → Q s t → Sim deep (fun x y => Q x.1 y.1 ∧ x.2 = y.2) (v s i) (w t i)) → Q s t →
      Sim deep (fun x y => Q x.1 y.1 ∧ x.2 = y.2) (constForRev frm to v s) (constForRev frm to w t)
  | 0, s, t, _, q => Sim.ok ⟨q, rfl⟩
  | n + 1, s, t, hv, q => by
    unfold constForRev iterateAsRangeRev
    refine Sim.bind (hv s t n (by omega) q) fun x y hxy => ?_
    obtain ⟨x, bx⟩ := x
    obtain ⟨y, by'⟩ := y
    obtain ⟨q', rfl⟩ := hxy
    cases bx with
    | true => exact Sim.ok ⟨q', rfl⟩
    | false =>
      simp only [Bool.false_eq_true, if_false]
      exact Sim.ite (fun _ => Sim.ok ⟨q', rfl⟩) fun _ => constForRev_sim frm n x y (fun s t i hi => hv s t i (by omega)) q'

section
variable {S C δ : Type} {I : Impl S C δ} {ss : List S}

/-- Iterators correspond, and at levels 2 and deeper there is nothing to visit. -/
structure ItRel (I : Impl S C δ) (x : IterSt (MUCursor S C)) (y : IterSt (Cursor S C)) : Prop where
  iters : y.iters = x.iters
  lidx : y.lidx = x.lidx
  cur : y.cur.cur = x.cur
  len : x.iters.length = I.D
  quiet : ∀ k it, 2 ≤ k → x.iters[k]? = some it → Quiet it

theorem quiet_set {l : List BitsIter} {k : Nat} {it : BitsIter} (h : ∀ k it, 2 ≤ k → l[k]? = some it → Quiet it)
    (hi : 2 ≤ k → Quiet it) : ∀ k' it', 2 ≤ k' → (l.set k it)[k']? = some it' → Quiet it' := by
  intro k' it' h2 e
  rw [List.getElem?_set] at e
  split at e
  · next hk =>
    split at e
    · cases e; exact hi (by omega)
    · cases e
  · exact h k' it' h2 e

theorem iterVisit_sim {x : IterSt (MUCursor S C)} {y : IterSt (Cursor S C)} {i : Nat} (hi : i < I.D - 1) (q : ItRel I x y) :
    Sim (3 ≤ I.D) (fun a b => ItRel I a.1 b.1 ∧ a.2 = b.2) ((multiUnionImpl I).iterVisit ss x i) ((impl I).iterVisit ss y i) := by
  obtain ⟨q1, q2, q3, q4, q5⟩ := q
  unfold Impl.iterVisit
  simp only [q1, q2]
  refine Sim.same fun it hit => ?_
  refine Sim.same fun p hp => ?_
  obtain ⟨o, it'⟩ := p
  refine Sim.same fun iters hiters => ?_
  have hg := getU_inv hit
  obtain ⟨rfl, hl⟩ := setU_inv hiters
  cases o with
  | none =>
    exact Sim.ok ⟨⟨rfl, rfl, q3, by simpa using q4, quiet_set q5 fun h2 => (quiet_next (q5 _ _ h2 hg) hp).2⟩, rfl⟩
  | some index =>
    have hi2 : ¬ 2 ≤ i := fun h2 => by
      have := (quiet_next (q5 _ _ h2 hg) hp).1
      cases this
    refine Sim.same fun lidx _ => ?_
    have hs := select_sim (I := I) (i := index) y.cur (i + 1)
    rw [q3] at hs
    have hs : Sim (3 ≤ I.D) _ ((multiUnionImpl I).selectU x.cur ss (i + 1) index) ((impl I).selectU y.cur ss (i + 1) index) :=
      hs.imp (fun h => ⟨by omega, h.2⟩) id
    refine Sim.bind hs fun a b hab => ?_
    obtain ⟨m, c⟩ := a
    obtain ⟨m', c'⟩ := b
    obtain ⟨rfl, hc, hm⟩ := hab
    refine Sim.same fun iters' hiters' => ?_
    obtain ⟨rfl, hl'⟩ := setU_inv hiters'
    exact Sim.ok ⟨⟨rfl, rfl, hc, by simpa using q4,
      quiet_set (quiet_set q5 fun h2 => absurd h2 hi2) fun h2 => quiet_into (hm h2)⟩, rfl⟩

theorem iterLoop_sim : ∀ (fuel : Nat) (x : IterSt (MUCursor S C)) (y : IterSt (Cursor S C)), ItRel I x y →
    Sim (3 ≤ I.D) (fun a b => a.1 = b.1 ∧ ItRel I a.2 b.2 ∧ (3 ≤ I.D → a.1 = none))
      ((multiUnionImpl I).iterLoop ss fuel x) ((impl I).iterLoop ss fuel y)
  | 0, _, _, _ => Sim.err
  | fuel + 1, x, y, q => by
    obtain ⟨q1, q2, q3, q4, q5⟩ := q
    unfold Impl.iterLoop
    simp only [q1]
    refine Sim.same fun it hit => ?_
    refine Sim.same fun p hp => ?_
    obtain ⟨o, it'⟩ := p
    have hg : x.iters[x.iters.length - 1]? = some it := by
      unfold getP at hit
      split at hit
      · next v hv => cases hit; exact hv
      · cases hit
    cases o with
    | some index =>
      have h3 : ¬ 3 ≤ I.D := fun h3 => by
        have := (quiet_next (q5 _ _ (by omega) hg) hp).1
        cases this
      exact Sim.ok ⟨rfl, ⟨rfl, q2, q3, by simpa using q4, quiet_set q5 fun h2 => absurd h2 (by omega)⟩, fun h => absurd h h3⟩
    | none =>
      have q' : ItRel I { x with iters := x.iters.set (x.iters.length - 1) it' }
          { y with iters := x.iters.set (x.iters.length - 1) it' } :=
        ⟨rfl, q2, q3, by simpa using q4, quiet_set q5 fun h2 => (quiet_next (q5 _ _ h2 hg) hp).2⟩
      refine Sim.bind (constForRev_sim 0 (I.D - 1) _ _ (fun s t i hi q => iterVisit_sim hi q) q') fun a b hab => ?_
      obtain ⟨a, ba⟩ := a
      obtain ⟨b, bb⟩ := b
      obtain ⟨q', rfl⟩ := hab
      exact Sim.ite (fun _ => iterLoop_sim fuel a b q') fun _ => Sim.ok ⟨rfl, q', fun _ => rfl⟩

theorem iterTake_sim (fuel : Nat) : ∀ (n : Nat) (x : IterSt (MUCursor S C)) (y : IterSt (Cursor S C)), ItRel I x y →
    Sim (3 ≤ I.D) (fun a b => a = b ∧ (3 ≤ I.D → ∀ o ∈ a, o = none))
      ((multiUnionImpl I).iterTake ss fuel n x) ((impl I).iterTake ss fuel n y)
  | 0, _, _, _ => Sim.ok ⟨rfl, fun _ o h => by cases h⟩
  | n + 1, x, y, q => by
    unfold Impl.iterTake
    have hn : Sim (3 ≤ I.D) (fun a b => a.1 = b.1 ∧ ItRel I a.2 b.2 ∧ (3 ≤ I.D → a.1 = none))
        ((multiUnionImpl I).iterNext ss fuel x) ((impl I).iterNext ss fuel y) := by
      unfold Impl.iterNext
      refine Sim.bind (iterLoop_sim fuel x y q) fun a b hab => ?_
      obtain ⟨o, a⟩ := a
      obtain ⟨o', b⟩ := b
      obtain ⟨rfl, q', hd⟩ := hab
      cases o with
      | none => exact Sim.ok ⟨rfl, q', fun _ => rfl⟩
      | some i =>
        simp only
        have hc : (impl I).curDataU b.cur ss i = (multiUnionImpl I).curDataU a.cur ss i := by
          show (multiUnionImpl I).curDataU b.cur.cur ss i = _
          rw [q'.cur]
        rw [hc]
        refine Sim.same fun d _ => ?_
        rw [show b.lidx = a.lidx from q'.lidx]
        exact Sim.same fun idx _ => Sim.ok ⟨rfl, q', fun h => by cases hd h⟩
    refine Sim.bind hn fun a b hab => ?_
    obtain ⟨o, a⟩ := a
    obtain ⟨o', b⟩ := b
    obtain ⟨rfl, q', hd⟩ := hab
    refine Sim.bind (iterTake_sim fuel n a b q') fun r r' e => ?_
    obtain ⟨rfl, hr⟩ := e
    refine Sim.ok ⟨rfl, fun h o ho => ?_⟩
    rcases List.mem_cons.1 ho with rfl | ho
    · exact hd h
    · exact hr h o ho

theorem iterRun_sim (fuel n : Nat) : Sim (3 ≤ I.D) (fun a b => a = b ∧ (3 ≤ I.D → ∀ o ∈ a, o = none))
    ((multiUnionImpl I).iterRun ss fuel n) ((impl I).iterRun ss fuel n) := by
  unfold Impl.iterRun
  refine Sim.bind (Q := ItRel I) ?_ fun a b q => iterTake_sim fuel n a b q
  unfold Impl.iterNew
  have hnew : Sim (3 ≤ I.D) (fun a b => b.cur = a) ((multiUnionImpl I).new ss) ((impl I).new ss) := by
    show Sim _ _ _ ((multiUnionImpl I).new ss >>= _)
    cases (multiUnionImpl I).new ss with
    | ok c => exact Sim.ok rfl
    | error e => exact Sim.err
  refine Sim.bind hnew fun c c' hc => ?_
  have hs := select_sim (I := I) (i := 0) c' 0
  rw [hc] at hs
  have hs : Sim (3 ≤ I.D) _ ((multiUnionImpl I).selectU c ss 0 0) ((impl I).selectU c' ss 0 0) :=
    hs.imp (fun h => absurd h.1 (by omega)) id
  refine Sim.bind hs fun a b hab => ?_
  obtain ⟨m, c⟩ := a
  obtain ⟨m', c'⟩ := b
  obtain ⟨rfl, hc, -⟩ := hab
  refine Sim.ite (fun _ => Sim.err) fun _ => Sim.ok ⟨rfl, rfl, hc, by simp [multiUnionImpl], ?_⟩
  refine quiet_set (fun k it _ e => ?_) fun h => absurd h (by omega)
  rw [List.getElem?_replicate] at e
  split at e
  · cases e; exact quiet_empty _
  · cases e

end

end Hibit.MAlias
