import Verif.TreeOf
import Verif.Ops.Model
/-!
# Operands that are borrowed

`map`, `union` and `intersection` take their operands as `S: Borrowable` (utils/borrowable.rs:41-47) and call
`borrow()` each time they need the tree. `Borrow` and `Borrowable` are safe traits that any type may implement, so `borrow()` of
a user's type may answer with a different tree each time. `Ops/Model` gives the operations one tree; here they get
the sequence of answers.
-/
namespace Hibit

/-- What `borrow()` of one operand answers during one operation (`get`, or the life of an iterator). `tree` is the answer
to the call made by `data` / `data_unchecked` of the operation. A cursor calls `borrow()` in `new` (answer `sel 0`), in its
`k`-th select (`sel k`), and in `data(i)` / `data_unchecked(i)`; if it has made `k` selects by then, the answer is
`dat k i`. An iterator reads each index of a node once, so this covers every sequence of answers it can get. -/
structure Borrows (S : Type) where
  tree : S
  sel : Nat → S
  dat : Nat → Nat → S

/-- An operand seen through `borrow()`: union.rs:49-59, 107-113, 124-154; intersection.rs:49-68, 102-171; map.rs:56-73, 101-140. The cursor counts its selects. -/
def fromBorrows {S C δ : Type} (J : Impl S C δ) : Impl (Borrows S) (Nat × C) δ where
  N := J.N
  D := J.D
  exact := J.exact
  data b index li := J.data b.tree index li
  dataU b index li := J.dataU b.tree index li
  new b := do
    let c ← J.new (b.sel 0)
    return (0, c)
  select kc b n i := do
    let r ← J.select kc.2 (b.sel (kc.1 + 1)) n i
    return (r.1, (kc.1 + 1, r.2))
  selectU kc b n i := do
    let r ← J.selectU kc.2 (b.sel (kc.1 + 1)) n i
    return (r.1, (kc.1 + 1, r.2))
  curData kc b i := J.curData kc.2 (b.dat kc.1 i) i
  curDataU kc b i := J.curDataU kc.2 (b.dat kc.1 i) i

/-- `borrow()` always answers with the tree `s`. -/
def Borrows.Always {S : Type} (b : Borrows S) (s : S) : Prop :=
  b.tree = s ∧ (∀ k, b.sel k = s) ∧ ∀ k i, b.dat k i = s

/-- The cursor relation; the count does not matter. -/
def borrowsRel {C : Type} (K : CursorRel C) : CursorRel (Nat × C) where
  inv kc := K.inv kc.2
  pos kc p := K.pos kc.2 p
  posC kc p := K.posC kc.2 p

section
variable {S C δ : Type} {J : Impl S C δ} {b : Borrows S} {s : S} {T : TreeSpec δ} {K : CursorRel C}

theorem fromBorrows_lawful (hb : b.Always s) (L : Lawful J s T K) : Lawful (fromBorrows J) b T (borrowsRel K) where
  cfg := L.cfg
  wf := L.wf
  data_eq p h1 h2 := by
    show J.data b.tree _ _ = _
    rw [hb.1]; exact L.data_eq p h1 h2
  dataU_eq p d h1 h2 h3 := by
    show J.dataU b.tree _ _ = _
    rw [hb.1]; exact L.dataU_eq p d h1 h2 h3
  new_ok := by
    obtain ⟨c, e, h⟩ := L.new_ok
    exact ⟨(0, c), by simp [fromBorrows, hb.2.1, e], h⟩
  pos_inv c p h := L.pos_inv c.2 p h
  posC_pos c p h := L.posC_pos c.2 p h
  pos_take c p k h := L.pos_take c.2 p k h
  select_root c i h hi := by
    obtain ⟨m, c', e, h1, h2, h3⟩ := L.select_root c.2 i h hi
    exact ⟨m, (c.1 + 1, c'), by simp [fromBorrows, hb.2.1, e], h1, h2, h3⟩
  selectU_root c i h hi := by
    obtain ⟨m, c', e, h1, h2, h3⟩ := L.selectU_root c.2 i h hi
    exact ⟨m, (c.1 + 1, c'), by simp [fromBorrows, hb.2.1, e], h1, h2, h3⟩
  select_node c p i h hp hi hl := by
    obtain ⟨m, c', e, h1, h2, h3⟩ := L.select_node c.2 p i h hp hi hl
    exact ⟨m, (c.1 + 1, c'), by simp [fromBorrows, hb.2.1, e], h1, h2, h3⟩
  selectU_node c p i h hp hi hl hbit := by
    obtain ⟨m, c', e, h1, h2, h3⟩ := L.selectU_node c.2 p i h hp hi hl hbit
    exact ⟨m, (c.1 + 1, c'), by simp [fromBorrows, hb.2.1, e], h1, h2, h3⟩
  curDataU_eq c p i d h hp hi hl hc := by
    show J.curDataU c.2 (b.dat c.1 i) i = _
    rw [hb.2.2]
    exact L.curDataU_eq c.2 p i d h hp hi hl hc

theorem fromBorrows_lawfulC (hb : b.Always s) (L : LawfulC J s T K) : LawfulC (fromBorrows J) b T (borrowsRel K) where
  toLawful := fromBorrows_lawful hb L.toLawful
  curData_eq c p i h hp hi hl := by
    show J.curData c.2 (b.dat c.1 i) i = _
    rw [hb.2.2]
    exact L.curData_eq c.2 p i h hp hi hl

theorem fromBorrows_isTree {M : Nat → Option δ} (hb : b.Always s) (h : IsTree J s M) : IsTree (fromBorrows J) b M := by
  obtain ⟨T, K, L, e⟩ := h
  exact ⟨T, _, fromBorrows_lawful hb L, e⟩

theorem fromBorrows_isTreeC {M : Nat → Option δ} (hb : b.Always s) (h : IsTreeC J s M) : IsTreeC (fromBorrows J) b M := by
  obtain ⟨T, K, L, e⟩ := h
  exact ⟨T, _, fromBorrows_lawfulC hb L, e⟩

end

/-! ## Iterators select the same nodes if their selects agree -/

section
variable {S S' C δ δ' : Type} {I : Impl S C δ} {I' : Impl S' C δ'} {s : S} {s' : S'}

theorem iterVisit_same (hs : ∀ c n i, I.selectU c s n i = I'.selectU c s' n i) (st : IterSt C) (n : Nat) :
    I.iterVisit s st n = I'.iterVisit s' st n := by
  unfold Impl.iterVisit
  simp only [hs]

theorem iterLoop_same (hD : I.D = I'.D) (hs : ∀ c n i, I.selectU c s n i = I'.selectU c s' n i) :
    ∀ (fuel : Nat) (st : IterSt C), I.iterLoop s fuel st = I'.iterLoop s' fuel st
  | 0, _ => rfl
  | fuel + 1, st => by
    unfold Impl.iterLoop
    have e : I.iterVisit s = I'.iterVisit s' := funext fun st => funext fun n => iterVisit_same hs st n
    rw [e, hD]
    have ih := iterLoop_same hD hs fuel
    simp only [ih]

theorem iterNew_same (hN : I.N = I'.N) (hD : I.D = I'.D) (hn : I.new s = I'.new s')
    (hs : ∀ c n i, I.selectU c s n i = I'.selectU c s' n i) : I.iterNew s = I'.iterNew s' := by
  unfold Impl.iterNew
  simp only [hs, hN, hD, hn]

end

end Hibit
