import Verif.Threads.Refine
/-!
# A thread among others: accesses to its own blocks, and how many there are
-/
namespace Hibit.Threads
open Hibit Hibit.Dense Hibit.Bytes

/-- The memory `h` contains the blocks `m`. -/
def Within (m : Mem) (h : BHeap) : Prop := ∀ x b, m x = some b → h.block x = some b

/-- What an access by the owner of the blocks `m` means for the memory: its blocks become `m'`, all others stay,
and new blocks come where nothing was. -/
structure Moves (m m' : Mem) (h h' : BHeap) : Prop where
  within : Within m' h'
  keep : ∀ x, m x = none → m' x = none → h'.block x = h.block x
  new : ∀ x, m x = none → m' x ≠ none → h.block x = none
  gone : ∀ x, m x ≠ none → m' x = none → h'.block x = none
  fin : Finite h'.block

theorem Moves.refl {m : Mem} {h : BHeap} (hw : Within m h) (hf : Finite h.block) : Moves m m h h :=
  ⟨hw, fun _ _ _ => rfl, fun _ h1 h2 => absurd h1 h2, fun _ h1 h2 => absurd h2 h1, hf⟩

theorem finite_upd {m : Mem} (hf : Finite m) (x : Nat) (o : Option Block) : Finite (upd m x o) := by
  obtain ⟨B, hB⟩ := hf
  refine ⟨max B (x + 1), fun y hy => ?_⟩
  rw [upd_other m o (by omega)]
  exact hB y (by omega)

/-- Overwriting an own block. -/
theorem Moves.put {m : Mem} {h : BHeap} (hw : Within m h) (hf : Finite h.block) {a : Nat} {b0 : Block}
    (ha : m a = some b0) (b : Block) : Moves m (upd m a (some b)) h (h.put a b) := by
  refine ⟨fun x b' hx => ?_, fun x h1 _ => ?_, fun x h1 h2 => ?_, fun x h1 h2 => ?_, finite_upd hf a _⟩
  · rw [put_block]
    by_cases e : x = a
    · subst e; rw [upd_same] at hx ⊢; exact hx
    · rw [upd_other _ _ e] at hx ⊢; exact hw x b' hx
  · rw [put_block, upd_other _ _ (by rintro rfl; rw [ha] at h1; cases h1)]
  · by_cases e : x = a
    · subst e; rw [ha] at h1; cases h1
    · rw [upd_other _ _ e] at h2; exact absurd h1 h2
  · by_cases e : x = a
    · subst e; rw [upd_same] at h2; cases h2
    · rw [upd_other _ _ e] at h2; exact absurd h2 h1

theorem look_within {m : Mem} {h : BHeap} (hw : Within m h) {p : Ptr} {b : Block} (e : look m p = some b) :
    look h.block p = some b := by
  cases p with
  | heap a => exact hw a b e
  | stat i => exact e

/-- An access that is possible with the own blocks succeeds in every memory that contains them. -/
theorem exec_own {a : Act} {m : Mem} {h : BHeap} (hw : Within m h) (hf : Finite h.block) (hc : a.Can m) :
    ∃ r h' m', a.exec h = .ok (r, h') ∧ a.Own m r m' ∧ Moves m m' h h' := by
  cases a with
  | load p off size align =>
    obtain ⟨b, v, e1, e2⟩ := hc
    refine ⟨v, h, m, ?_, ⟨b, e1, e2, rfl⟩, Moves.refl hw hf⟩
    simp only [Act.exec, look_within hw e1, unwrapU, bind_ok, e2]
    rfl
  | store p off align v =>
    obtain ⟨a, b, b', rfl, e1, e2⟩ := hc
    refine ⟨(), h.put a b', upd m a (some b'), ?_, ⟨a, b, b', rfl, e1, e2, rfl⟩, Moves.put hw hf e1 b'⟩
    simp only [Act.exec, hw a b e1, unwrapU, bind_ok, e2]
    rfl
  | move p src dst size align =>
    obtain ⟨a, b, b', rfl, e1, e2⟩ := hc
    refine ⟨(), h.put a b', upd m a (some b'), ?_, ⟨a, b, b', rfl, e1, e2, rfl⟩, Moves.put hw hf e1 b'⟩
    simp only [Act.exec, hw a b e1, unwrapU, bind_ok, e2]
    rfl
  | alloc size =>
    have hfree := h.allocator.free h.calls h.block (fresh size).length hf
    generalize hx : h.allocator.pick h.calls h.block (fresh size).length = x at hfree
    have hm : m x = none := by
      cases e : m x with
      | none => rfl
      | some b => rw [hw x b e] at hfree; cases hfree
    refine ⟨x, ⟨upd h.block x (some (fresh size)), h.calls + 1, h.allocator⟩, upd m x (some (fresh size)),
      ?_, ⟨hm, rfl⟩, fun y b hy => ?_, fun y h1 h2 => ?_, fun y h1 h2 => ?_, fun y h1 h2 => ?_,
      finite_upd hf x _⟩
    · simp only [Act.exec, BHeap.alloc, hx]
      rfl
    · show upd h.block x _ y = _
      by_cases e : y = x
      · subst e; rw [upd_same] at hy ⊢; exact hy
      · rw [upd_other _ _ e] at hy ⊢; exact hw y b hy
    · show upd h.block x _ y = _
      rw [upd_other _ _ (by rintro rfl; rw [upd_same] at h2; cases h2)]
    · by_cases e : y = x
      · subst e; exact hfree
      · rw [upd_other _ _ e] at h2; exact absurd h1 h2
    · by_cases e : y = x
      · subst e; exact absurd hm h1
      · rw [upd_other _ _ e] at h2; exact absurd h2 h1
  | free p size =>
    obtain ⟨a, b, rfl, e1, e2⟩ := hc
    refine ⟨(), ⟨upd h.block a none, h.calls, h.allocator⟩, upd m a none, ?_, ⟨a, b, rfl, e1, e2, rfl⟩,
      fun y b hy => ?_, fun y h1 h2 => ?_, fun y h1 h2 => ?_, fun y h1 h2 => ?_, finite_upd hf a _⟩
    · simp only [Act.exec, BHeap.dealloc, hw a b e1, unwrapU, bind_ok, if_pos e2]
      rfl
    · show upd h.block a _ y = _
      by_cases e : y = a
      · subst e; rw [upd_same] at hy; cases hy
      · rw [upd_other _ _ e] at hy ⊢; exact hw y b hy
    · show upd h.block a _ y = _
      rw [upd_other _ _ (by rintro rfl; rw [e1] at h1; cases h1)]
    · by_cases e : y = a
      · subst e; rw [upd_same] at h2; exact absurd rfl h2
      · rw [upd_other _ _ e] at h2; exact absurd h1 h2
    · show upd h.block a _ y = _
      by_cases e : y = a
      · subst e; rw [upd_same]
      · rw [upd_other _ _ e] at h2; exact absurd h2 h1
  | realloc p size newSize =>
    obtain ⟨a, b, rfl, e1, e2⟩ := hc
    have hf1 : Finite (upd h.block a none) := finite_upd hf a _
    generalize hb : b.take newSize ++ fresh (newSize - b.length) = b'
    have hfree := h.allocator.free h.calls (upd h.block a none) b'.length hf1
    generalize hx : h.allocator.pick h.calls (upd h.block a none) b'.length = x at hfree
    have hm : x = a ∨ m x = none := by
      by_cases e : x = a
      · exact .inl e
      · rw [upd_other _ _ e] at hfree
        refine .inr ?_
        cases e : m x with
        | none => rfl
        | some b => rw [hw x b e] at hfree; cases hfree
    refine ⟨x, ⟨upd (upd h.block a none) x (some b'), h.calls + 1, h.allocator⟩,
      upd (upd m a none) x (some b'), ?_, ⟨a, b, rfl, e1, e2, hm, by rw [hb]⟩,
      fun y b hy => ?_, fun y h1 h2 => ?_, fun y h1 h2 => ?_, fun y h1 h2 => ?_, finite_upd hf1 x _⟩
    · simp only [Act.exec, BHeap.realloc, BHeap.dealloc, hw a b e1, unwrapU, bind_ok, if_pos e2, pure_eq_ok,
        BHeap.alloc, hb]
      have hx : h.allocator.pick h.calls (fun x => if x = a then none else h.block x) b'.length = x := hx
      rw [hx]
      rfl
    · show upd (upd h.block a none) x _ y = _
      by_cases e : y = x
      · subst e; rw [upd_same] at hy ⊢; exact hy
      · rw [upd_other _ _ e] at hy ⊢
        by_cases e' : y = a
        · subst e'; rw [upd_same] at hy; cases hy
        · rw [upd_other _ _ e'] at hy ⊢; exact hw y b hy
    · show upd (upd h.block a none) x _ y = _
      rw [upd_other _ _ (by rintro rfl; rw [upd_same] at h2; cases h2),
        upd_other _ _ (by rintro rfl; rw [e1] at h1; cases h1)]
    · by_cases e : y = x
      · subst e
        rw [upd_other _ _ (by rintro rfl; rw [e1] at h1; cases h1)] at hfree
        exact hfree
      · rw [upd_other _ _ e] at h2
        by_cases e' : y = a
        · subst e'; rw [upd_same] at h2; exact absurd rfl h2
        · rw [upd_other _ _ e'] at h2; exact absurd h1 h2
    · show upd (upd h.block a none) x _ y = _
      by_cases e : y = x
      · subst e; rw [upd_same] at h2; cases h2
      · rw [upd_other _ _ e] at h2 ⊢
        by_cases e' : y = a
        · subst e'; rw [upd_same]
        · rw [upd_other _ _ e'] at h2; exact absurd h2 h1

theorem Safe.imp {β : Type} {Q Q' : β → Mem → Prop} (hQ : ∀ b m, Q b m → Q' b m) : ∀ (p : Prog β) (m : Mem),
    Safe p m Q → Safe p m Q'
  | .ret b, m, h => hQ b m h
  | .err _, _, h => h
  | .act _ k, _, h => ⟨h.1, fun r m' o => Safe.imp hQ (k r) m' (h.2 r m' o)⟩

theorem Safe.bind {β γ : Type} {Q : β → Mem → Prop} {Q' : γ → Mem → Prop} {f : β → Prog γ}
    (hQ : ∀ b m, Q b m → Safe (f b) m Q') : ∀ (p : Prog β) (m : Mem), Safe p m Q → Safe (p >>= f) m Q'
  | .ret b, m, h => hQ b m h
  | .err _, _, h => h
  | .act _ k, _, h => ⟨h.1, fun r m' o => Safe.bind hQ (k r) m' (h.2 r m' o)⟩

/-! ## Number of accesses -/

/-- The program makes at most `n` accesses, whatever the answers. -/
def AtMost {β : Type} : Nat → Prog β → Prop
  | _, .ret _ => True
  | _, .err _ => True
  | 0, .act _ _ => False
  | n + 1, .act _ k => ∀ r, AtMost n (k r)

section
variable {β γ : Type}

theorem AtMost.mono {p : Prog β} : ∀ {n n' : Nat}, AtMost n p → n ≤ n' → AtMost n' p := by
  induction p with
  | ret b => intros; simp only [AtMost]
  | err e => intros; simp only [AtMost]
  | act a k ih =>
    intro n n' h hle
    cases n with
    | zero => exact absurd h (by simp only [AtMost]; exact id)
    | succ n =>
      obtain ⟨m, rfl⟩ : ∃ m, n' = m + 1 := ⟨n' - 1, by omega⟩
      exact fun r => ih r (h r) (by omega)

theorem AtMost.ret {n : Nat} {b : β} : AtMost n (.ret b) := by simp only [AtMost]
theorem AtMost.err {n : Nat} {e : Err} : AtMost n (.err e : Prog β) := by simp only [AtMost]
theorem AtMost.lift {n : Nat} {x : R β} : AtMost n (Prog.lift x) := by
  cases x <;> simp only [Prog.lift, AtMost]

theorem AtMost.step {a : Act} : AtMost 1 (Prog.step a) := fun _ => AtMost.ret

theorem AtMost.bind {p : Prog β} {f : β → Prog γ} {m : Nat} (hf : ∀ b, AtMost m (f b)) :
    ∀ {n : Nat}, AtMost n p → AtMost (n + m) (p >>= f) := by
  induction p with
  | ret b => intro n _; exact (hf b).mono (by omega)
  | err e => intros; exact AtMost.err
  | act a k ih =>
    intro n h
    cases n with
    | zero => exact absurd h (by simp only [AtMost]; exact id)
    | succ n =>
      rw [Nat.add_right_comm]
      exact fun r => ih r (h r)

/-- Sequencing with the total given. -/
theorem AtMost.seq {p : Prog β} {f : β → Prog γ} (n m : Nat) {t : Nat} (hp : AtMost n p)
    (hf : ∀ b, AtMost m (f b)) (ht : n + m ≤ t) : AtMost t (p >>= f) := (hp.bind hf).mono ht

/-- After a private computation. -/
theorem AtMost.priv {x : R β} {f : β → Prog γ} {m : Nat} (hf : ∀ b, AtMost m (f b)) :
    AtMost m (Prog.lift x >>= f) := AtMost.seq 0 m AtMost.lift hf (by omega)

theorem AtMost.ite {c : Prop} [Decidable c] {p q : Prog β} {n : Nat} (h1 : AtMost n p) (h2 : AtMost n q) :
    AtMost n (if c then p else q) := by
  by_cases h : c
  · rw [if_pos h]; exact h1
  · rw [if_neg h]; exact h2

theorem getMask_most (p : Ptr) : AtMost 1 (getMask p) :=
  AtMost.seq 1 0 AtMost.step (fun _ => AtMost.priv fun _ => AtMost.ret) (by omega)
theorem getCap_most (p : Ptr) : AtMost 1 (getCap p) := AtMost.seq 1 0 AtMost.step (fun _ => AtMost.lift) (by omega)
theorem getLen_most (p : Ptr) : AtMost 1 (getLen p) := AtMost.seq 1 0 AtMost.step (fun _ => AtMost.lift) (by omega)
theorem childPtr_most (p : Ptr) (d : Nat) : AtMost 1 (childPtr p d) :=
  AtMost.seq 1 0 AtMost.step (fun _ => AtMost.lift) (by omega)
theorem childIdx_most (p : Ptr) (d : Nat) : AtMost 1 (childIdx p d) :=
  AtMost.seq 1 0 AtMost.step (fun _ => AtMost.lift) (by omega)
theorem putChild_most (k : Kind) (p : Ptr) (d : Nat) (c : Cell) : AtMost 1 (putChild k p d c) :=
  AtMost.priv fun _ => AtMost.step
theorem contains_most (p : Ptr) (i : Nat) : AtMost 1 (contains p i) :=
  AtMost.seq 1 0 (getMask_most p) (fun _ => AtMost.lift) (by omega)
theorem denseOf_most (p : Ptr) (i : Nat) : AtMost 1 (denseOf p i) :=
  AtMost.seq 1 0 (getMask_most p) (fun _ => AtMost.lift) (by omega)
theorem getChildPtr_most (p : Ptr) (i : Nat) : AtMost 2 (getChildPtr p i) :=
  AtMost.seq 1 1 (denseOf_most p i) (fun _ => childPtr_most _ _) (by omega)
theorem getChildIdx_most (p : Ptr) (i : Nat) : AtMost 2 (getChildIdx p i) :=
  AtMost.seq 1 1 (denseOf_most p i) (fun _ => childIdx_most _ _) (by omega)

theorem nodeNew_most (k : Kind) (cap : Nat) (c : Cell) : AtMost 5 (nodeNew k cap c) :=
  AtMost.seq 1 4 AtMost.step (fun _ => AtMost.seq 1 3 AtMost.step (fun _ => AtMost.ite
    (AtMost.seq 1 2 AtMost.step (fun _ => AtMost.seq 1 1 AtMost.step (fun _ =>
      AtMost.seq 1 0 (putChild_most _ _ _ _) (fun _ => AtMost.ret) (by omega)) (by omega)) (by omega))
    AtMost.err) (by omega)) (by omega)

theorem nodeGrow_most (k : Kind) (p : Ptr) : AtMost 4 (nodeGrow k p) :=
  AtMost.seq 1 3 (getCap_most p) (fun _ => AtMost.seq 1 2 (getLen_most p) (fun _ => AtMost.ite
    (AtMost.priv fun _ => AtMost.seq 1 1 AtMost.step (fun _ =>
      AtMost.seq 1 0 AtMost.step (fun _ => AtMost.ret) (by omega)) (by omega)) AtMost.ret) (by omega)) (by omega)

theorem nodeInsert_most (k : Kind) (p : Ptr) (i : Nat) (v : Cell) : AtMost 12 (nodeInsert k p i v) :=
  AtMost.seq 4 8 (nodeGrow_most k p) (fun _ => AtMost.seq 1 7 (getMask_most _) (fun _ => AtMost.priv fun _ =>
    AtMost.seq 1 6 AtMost.step (fun _ => AtMost.seq 1 5 (getMask_most _) (fun _ => AtMost.priv fun _ =>
    AtMost.seq 1 4 (getLen_most _) (fun _ => AtMost.priv fun _ => AtMost.seq 1 3 AtMost.step (fun _ =>
    AtMost.seq 1 2 (putChild_most _ _ _ _) (fun _ => AtMost.seq 1 1 (getLen_most _) (fun _ => AtMost.priv fun _ =>
    AtMost.seq 1 0 AtMost.step (fun _ => AtMost.ret) (by omega)) (by omega)) (by omega)) (by omega)) (by omega))
    (by omega)) (by omega)) (by omega)) (by omega)

theorem nodeRemove_most (k : Kind) (p : Ptr) (i : Nat) : AtMost 6 (nodeRemove k p i) :=
  AtMost.seq 1 5 (getMask_most p) (fun _ => AtMost.priv fun _ => AtMost.priv fun _ =>
    AtMost.seq 1 4 AtMost.step (fun _ => AtMost.seq 1 3 (getLen_most p) (fun _ => AtMost.priv fun _ =>
    AtMost.seq 1 2 AtMost.step (fun _ => AtMost.seq 1 1 (getLen_most p) (fun _ => AtMost.priv fun _ =>
    AtMost.step) (by omega)) (by omega)) (by omega)) (by omega)) (by omega)

theorem dropNode_most (k : Kind) (p : Ptr) : AtMost 2 (dropNode k p) :=
  AtMost.seq 1 1 (getCap_most p) (fun _ => AtMost.step) (by omega)

theorem setChild_most (k : Kind) (p : Ptr) (i : Nat) (v : Cell) : AtMost 2 (setChild k p i v) :=
  AtMost.seq 1 1 (getMask_most p) (fun _ => AtMost.priv fun _ => putChild_most _ _ _ _) (by omega)

theorem loopFwd_most {σ : Type} {v : σ → Nat → Prog (σ × Bool)} {c : Nat} (hv : ∀ s i, AtMost c (v s i))
    (start stop : Nat) : ∀ (is : List Nat) (s : σ),
    AtMost (c * (is.takeWhile (fun i => stop != i)).length) (loopFwd start stop v is s)
  | [], s => AtMost.ret
  | i :: is, s => by
    unfold loopFwd
    by_cases h : stop = i
    · rw [if_pos h]; exact AtMost.ret
    · rw [if_neg h, List.takeWhile_cons, if_pos (by simpa using h), List.length_cons, Nat.mul_succ]
      refine AtMost.ite (AtMost.seq c _ (hv s i) (fun r => AtMost.ite AtMost.ret
        (loopFwd_most hv start stop is r.1)) (by omega)) ((loopFwd_most hv start stop is s).mono (by omega))

theorem loopRevGo_most {σ : Type} {v : σ → Nat → Prog (σ × Bool)} {c : Nat} (hv : ∀ s i, AtMost c (v s i))
    (start stop : Nat) : ∀ (is : List Nat) (s : σ),
    AtMost (c * (is.filter (fun i => decide (i < stop))).length) (loopRevGo start stop v is s)
  | [], s => AtMost.ret
  | i :: is, s => by
    unfold loopRevGo
    by_cases h : start ≤ i ∧ i < stop
    · rw [if_pos h, List.filter_cons, if_pos (by simpa using h.2), List.length_cons, Nat.mul_succ]
      exact AtMost.seq c _ (hv s i) (fun r => AtMost.ite AtMost.ret
        (loopRevGo_most hv start stop is r.1)) (by omega)
    · rw [if_neg h]
      refine (loopRevGo_most hv start stop is s).mono (Nat.mul_le_mul_left c ?_)
      rw [List.filter_cons]
      split
      · rw [List.length_cons]; omega
      · omega

theorem loop_most {σ : Type} {v : σ → Nat → Prog (σ × Bool)} {c : Nat} (hv : ∀ s i, AtMost c (v s i))
    (start stop : Nat) (s : σ) : AtMost (c * stop) (loop start stop v s) := by
  unfold loop
  by_cases h : stop < 9 ∧ start ≤ stop
  · rw [if_pos h]
    have e : ∀ n, n < 9 → (([0,1,2,3,4,5,6,7,8] : List Nat).takeWhile (fun i => n != i)).length = n := by decide
    have := loopFwd_most hv start stop [0,1,2,3,4,5,6,7,8] s
    rwa [e stop h.1] at this
  · rw [if_neg h]; exact AtMost.err

theorem loopRev_most {σ : Type} {v : σ → Nat → Prog (σ × Bool)} {c : Nat} (hv : ∀ s i, AtMost c (v s i))
    (start stop : Nat) (s : σ) : AtMost (c * stop) (loopRev start stop v s) := by
  unfold loopRev
  by_cases h : stop < 9 ∧ start ≤ stop
  · rw [if_pos h]
    have e : ∀ n, n < 9 → (([8,7,6,5,4,3,2,1,0] : List Nat).filter (fun i => decide (i < n))).length = n := by decide
    have := loopRevGo_most hv start stop [8,7,6,5,4,3,2,1,0] s
    rwa [e stop h.1] at this
  · rw [if_neg h]; exact AtMost.err

end

section
variable {α : Type}

theorem newTree_most (D : Nat) : AtMost 5 (newTree α D) :=
  AtMost.ite (AtMost.seq 5 0 (nodeNew_most _ _ _) (fun _ => AtMost.ret) (by omega))
    (AtMost.priv fun _ => AtMost.seq 5 0 (nodeNew_most _ _ _) (fun _ => AtMost.ret) (by omega))

theorem read_most (w : Spot) : AtMost 1 w.read := by
  unfold Spot.read
  split
  · exact AtMost.ret
  · exact childPtr_most _ _

theorem write_most (w : Spot) (p : Ptr) : AtMost 1 (w.write p) := by
  unfold Spot.write
  split
  · exact AtMost.ret
  · exact AtMost.seq 1 0 (putChild_most _ _ _ _) (fun _ => AtMost.ret) (by omega)

theorem slotOf_most (p : Ptr) (d : Nat) : AtMost 0 (slotOf p d) := by
  cases p
  · exact AtMost.ret
  · exact AtMost.err

theorem insertStep_most (D : Nat) (indices : List Nat) (w : Spot) (N : Nat) :
    AtMost 20 (insertStep D indices w N) := by
  have tail : ∀ (p c : Ptr) (i : Nat), AtMost 13 (do
      let r ← nodeInsert .branch p i (.ptr c)
      let w ← w.write r.2
      let slot ← slotOf r.2 r.1
      return ((⟨w.root, slot⟩ : Spot), false)) := fun p c i =>
    AtMost.seq 12 1 (nodeInsert_most _ _ _ _) (fun _ => AtMost.seq 1 0 (write_most _ _) (fun _ =>
      AtMost.seq 0 0 (slotOf_most _ _) (fun _ => AtMost.ret) (by omega)) (by omega)) (by omega)
  unfold insertStep
  refine AtMost.priv fun i => AtMost.seq 1 19 (read_most w) (fun p => AtMost.seq 1 18 (contains_most p i)
    (fun c => AtMost.ite ?_ ?_) (by omega)) (by omega)
  · exact AtMost.seq 1 0 (denseOf_most _ _) (fun _ => AtMost.seq 0 0 (slotOf_most _ _) (fun _ => AtMost.ret)
      (by omega)) (by omega)
  · exact AtMost.ite (AtMost.seq 5 13 (nodeNew_most _ _ _) (fun c => tail p c i) (by omega))
      (AtMost.priv fun _ => AtMost.seq 5 13 (nodeNew_most _ _ _) (fun c => tail p c i) (by omega))

theorem getOrInsertImpl_most {D : Nat} (hD : 1 ≤ D) (t : Tree α) (index : Nat) (ins : Bool) (value : α) :
    AtMost (20 * D) (getOrInsertImpl D t index ins value) := by
  unfold getOrInsertImpl
  refine AtMost.priv fun indices => AtMost.seq (20 * (D - 1)) 15 (AtMost.seq (20 * (D - 1)) 0
    (loop_most (insertStep_most D indices) 0 (D - 1) _) (fun _ => AtMost.ret) (by omega)) (fun w => ?_) (by omega)
  refine AtMost.seq 1 14 (read_most w) (fun p => AtMost.priv fun i => AtMost.seq 1 13 (contains_most p i)
    (fun c => AtMost.ite ?_ ?_) (by omega)) (by omega)
  · exact AtMost.seq 2 0 (getChildIdx_most p i) (fun j => AtMost.priv fun _ => AtMost.priv fun _ => AtMost.ite
      (AtMost.priv fun _ => AtMost.ret) AtMost.ret) (by omega)
  · exact AtMost.seq 12 1 (nodeInsert_most _ _ _ _) (fun _ => AtMost.seq 1 0 (write_most _ _) (fun _ => AtMost.ret)
      (by omega)) (by omega)

theorem branchLoop_most (indices : List Nat) : ∀ (ns : List Nat) (p : Ptr),
    AtMost (2 * ns.length) (branchLoop indices ns p)
  | [], _ => AtMost.ret
  | _ :: ns, p => AtMost.priv fun _ => AtMost.seq 2 (2 * ns.length) (getChildPtr_most _ _) (fun q =>
      AtMost.seq (2 * ns.length) 0 (branchLoop_most indices ns q) (fun _ => AtMost.ret) (by omega))
      (by rw [List.length_cons]; omega)

theorem terminalLoop_most (indices : List Nat) : ∀ (ns : List Nat) (p : Ptr),
    AtMost (2 * ns.length) (terminalLoop indices ns p)
  | [], _ => AtMost.ret
  | _ :: ns, p => AtMost.priv fun _ => AtMost.seq 2 (2 * ns.length) (getChildPtr_most _ _) (fun q =>
      terminalLoop_most indices ns q) (by rw [List.length_cons]; omega)

theorem getTerminalNode_most (D : Nat) (root : Ptr) (indices : List Nat) :
    AtMost (2 * (D - 1)) (getTerminalNode D root indices) := by
  have := terminalLoop_most indices (List.range (D - 1)) root
  rw [List.length_range] at this
  exact AtMost.seq _ 0 this (fun _ => AtMost.priv fun _ => AtMost.ret) (by omega)

theorem climbStep_most (root : Ptr) (branch : List Ptr) (indices : List Nat) (u : Unit) (N : Nat) :
    AtMost 9 (climbStep root branch indices u N) := by
  unfold climbStep
  exact AtMost.priv fun _ => AtMost.priv fun _ => AtMost.seq 6 3 (nodeRemove_most _ _ _) (fun _ =>
    AtMost.seq 1 2 (getLen_most _) (fun _ => AtMost.ite AtMost.ret (AtMost.ite
      (AtMost.seq 2 0 (dropNode_most _ _) (fun _ => AtMost.ret) (by omega)) AtMost.ret)) (by omega)) (by omega)

theorem removeCell_most (D : Nat) (root : Ptr) (indices : List Nat) (branch : List Ptr) (terminal : Ptr)
    (inner : Nat) : AtMost (9 * (D - 1) + 9) (removeCell D root indices branch terminal inner) := by
  unfold removeCell
  exact AtMost.seq 6 (9 * (D - 1) + 3) (nodeRemove_most _ _ _) (fun _ => AtMost.seq 1 (9 * (D - 1) + 2)
    (getLen_most _) (fun _ => AtMost.ite (AtMost.seq 2 (9 * (D - 1)) (dropNode_most _ _) (fun _ =>
      AtMost.seq (9 * (D - 1)) 0 (loopRev_most (climbStep_most root branch indices) 0 (D - 1) ()) (fun _ => AtMost.ret)
        (by omega)) (by omega)) AtMost.ret) (by omega)) (by omega)

theorem removeKey_most (D : Nat) (t : Tree α) (index dataIndex : Nat) :
    AtMost (2 * (D - 1) + 2) (removeKey D t index dataIndex) := by
  unfold removeKey
  exact AtMost.priv fun _ => AtMost.ite (AtMost.priv fun _ => AtMost.priv fun _ =>
    AtMost.seq (2 * (D - 1)) 2 (getTerminalNode_most _ _ _) (fun _ => AtMost.seq 2 0 (setChild_most _ _ _ _)
      (fun _ => AtMost.ret) (by omega)) (by omega)) AtMost.ret

theorem remove_most {D : Nat} (hD : 1 ≤ D) (t : Tree α) (index : Nat) : AtMost (20 * D) (remove D t index) := by
  unfold remove
  refine AtMost.priv fun index => AtMost.priv fun indices => ?_
  have := branchLoop_most indices (List.range (D - 1)) t.root
  rw [List.length_range] at this
  refine AtMost.seq (2 * (D - 1)) (11 * (D - 1) + 13) this (fun branch => AtMost.priv fun terminal =>
    AtMost.priv fun inner => AtMost.seq 2 (11 * (D - 1) + 11) (getChildIdx_most _ _) (fun di => AtMost.priv fun key =>
    AtMost.ite ?_ AtMost.ret) (by omega)) (by omega)
  exact AtMost.seq (9 * (D - 1) + 9) (2 * (D - 1) + 2) (removeCell_most _ _ _ _ _ _) (fun _ =>
    AtMost.seq (2 * (D - 1) + 2) 0 (removeKey_most _ _ _ _) (fun _ => AtMost.priv fun _ => AtMost.ret) (by omega))
    (by omega)

theorem get_most {D : Nat} (hD : 1 ≤ D) (t : Tree α) (index : Nat) : AtMost (2 * D) (get D t index) := by
  unfold get
  exact AtMost.priv fun _ => AtMost.priv fun _ => AtMost.seq (2 * (D - 1)) 2 (getTerminalNode_most _ _ _) (fun r =>
    AtMost.seq 2 0 (getChildIdx_most _ _) (fun _ => AtMost.priv fun _ => AtMost.ite (AtMost.priv fun _ =>
      AtMost.priv fun _ => AtMost.ret) AtMost.ret) (by omega)) (by omega)

/-- Every operation makes at most `20 · D` accesses. -/
theorem opProg_most {D : Nat} (hD : 1 ≤ D) (t : Tree α) (o : Op α) : AtMost (20 * D) (opProg D t o) := by
  cases o with
  | insert k v =>
    exact AtMost.seq (20 * D) 0 (AtMost.priv fun _ => getOrInsertImpl_most hD t _ _ _) (fun _ => AtMost.ret) (by omega)
  | getOrInsert k dflt g =>
    exact AtMost.seq (20 * D) 0 (AtMost.priv fun _ => getOrInsertImpl_most hD t _ _ _) (fun _ =>
      AtMost.seq 0 0 (AtMost.priv fun _ => AtMost.priv fun _ => AtMost.priv fun _ => AtMost.ret) (fun _ => AtMost.ret)
        (by omega)) (by omega)
  | remove k => exact AtMost.seq (20 * D) 0 (remove_most hD t k) (fun _ => AtMost.ret) (by omega)
  | get k => exact AtMost.seq (2 * D) 0 (get_most hD t k) (fun _ => AtMost.ret) (by omega)
  | mutValues g =>
    refine AtMost.seq 0 0 ?_ (fun _ => AtMost.ret) (by omega)
    unfold mutValues
    exact AtMost.ite AtMost.ret AtMost.err

end
end Hibit.Threads
