import Verif.Sparse.Model
/-!
# Level storage: two implementations of `ILevel`

`src/level/intrusive_list_level.rs` (modelled in `Verif/Sparse/Model.lean`: `Level.insertEmpty`,
`Level.removeEmpty`) keeps its free list inside the freed blocks; `src/level/level.rs` keeps it in a second
vector. Both run under the same calls here, with the caller free to overwrite the blocks it owns.
-/
namespace Hibit.Sparse
open Hibit

/-- level.rs:7-10 `Level`; the top of the stack `empty_block_indices` is the head of `free`. -/
structure PLevel where
  blocks : List Block
  free : List Nat

/-- level.rs:12-21 -/
def PLevel.default (N : Nat) : PLevel := ⟨[Block.empty N], []⟩

/-- level.rs:37-45 `insert_empty_block` -/
def PLevel.insertEmpty (N : Nat) (L : PLevel) : Nat × PLevel :=
  match L.free with
  | i :: fs => (i, { L with free := fs })
  | [] => (L.blocks.length, { L with blocks := L.blocks ++ [Block.empty N] })

/-- level.rs:48-50 `remove_empty_block_unchecked` -/
def PLevel.removeEmpty (L : PLevel) (i : Nat) : PLevel := { L with free := i :: L.free }

/-- A call on a level. -/
inductive LvOp where
  /-- `insert_empty_block()` -/
  | alloc
  /-- `remove_empty_block_unchecked(i)` -/
  | free (i : Nat)
  /-- `blocks_mut()[i] = b` -/
  | write (i : Nat) (b : Block)

/-- A call on an `IntrusiveListLevel`. -/
def Level.stepLv (N : Nat) (L : Level) : LvOp → R (Level × Option Nat)
  | .alloc => do
    let (i, L) ← L.insertEmpty N
    return (L, some i)
  | .free i => do
    let L ← L.removeEmpty i
    return (L, none)
  | .write i b => do
    let blocks ← setU L.blocks i b
    return ({ L with blocks := blocks }, none)

/-- A call on a `Level`. -/
def PLevel.stepLv (N : Nat) (L : PLevel) : LvOp → R (PLevel × Option Nat)
  | .alloc =>
    let (i, L) := L.insertEmpty N
    .ok (L, some i)
  | .free i => .ok (L.removeEmpty i, none)
  | .write i b => do
    let blocks ← setU L.blocks i b
    return ({ L with blocks := blocks }, none)

/-- A sequence of calls and their results. -/
def runLv {L : Type} (step : L → LvOp → R (L × Option Nat)) : L → List LvOp → R (L × List (Option Nat))
  | l, [] => .ok (l, [])
  | l, op :: ops => do
    let (l, o) ← step l op
    let (l, os) ← runLv step l ops
    return (l, o :: os)

/-! ## Specification -/

/-- The blocks the caller owns, with their content. -/
abbrev Owned := Nat → Option Block

/-- What the caller owns after a call that returned `o`. -/
def Owned.after (N : Nat) (G : Owned) : LvOp → Option Nat → Owned
  | .alloc, some i => fun j => if j = i then some (Block.empty N) else G j
  | .alloc, none => G
  | .free i, _ => fun j => if j = i then none else G j
  | .write i b, _ => fun j => if j = i then some b else G j

/-- What the caller may do: give back a block it owns and has emptied, overwrite a block it owns. -/
def LvOp.Legal (N : Nat) (G : Owned) : LvOp → Prop
  | .alloc => True
  | .free i => G i = some (Block.empty N)
  | .write i b => G i ≠ none ∧ b.mask.length = N

/-- The calls `ops` with results `os`, the caller owning `G` before, form a correct use of an allocator:
every call is legal given the results so far, and every allocation returns an index other than 0 that
is not in use. The last argument is what the caller owns at the end. -/
def GoodUse (N : Nat) : Owned → List LvOp → List (Option Nat) → Owned → Prop
  | G, [], [], G' => G = G'
  | G, op :: ops, o :: os, G' => op.Legal N G ∧
      (op = .alloc → ∃ i, o = some i ∧ i ≠ 0 ∧ G i = none) ∧ GoodUse N (G.after N op o) ops os G'
  | _, _, _, _ => False

/-- The caller keeps to the rules when it runs `ops` on a `Level` in state `l`. -/
def LegalUse (N : Nat) : PLevel → Owned → List LvOp → Prop
  | _, _, [] => True
  | l, G, op :: ops => op.Legal N G ∧ ∀ l' o, l.stepLv N op = .ok (l', o) →
      LegalUse N l' (G.after N op o) ops

/-! ## Proof -/

/-- The free list through the blocks, starting with link `root`, is `fs`. -/
def Linked (N : Nat) (blocks : List Block) : Word → List Nat → Prop
  | root, [] => root = freeEnd
  | root, i :: fs => root = BitVec.ofNat 64 i ∧ ∃ nxt,
      blocks[i]? = some ⟨(zeroMask N).set 0 nxt, List.replicate (width N) 0⟩ ∧ Linked N blocks nxt fs

/-- Corresponding states. -/
structure LvRel (N : Nat) (G : Owned) (I : Level) (P : PLevel) : Prop where
  single : I.single = false
  len : I.blocks.length = P.blocks.length
  zero : 0 < P.blocks.length
  zeroI : I.blocks[0]? = some (Block.empty N)
  zeroP : P.blocks[0]? = some (Block.empty N)
  zeroG : G 0 = none
  owned : ∀ i b, G i = some b → I.blocks[i]? = some b ∧ P.blocks[i]? = some b ∧ b.mask.length = N
  nodup : P.free.Nodup
  free : ∀ i ∈ P.free, i ≠ 0 ∧ G i = none ∧ P.blocks[i]? = some (Block.empty N)
  linked : Linked N I.blocks I.rootEmpty P.free

theorem Linked.congr {N : Nat} {bs bs' : List Block} : ∀ {fs : List Nat} {root : Word},
    Linked N bs root fs → (∀ i ∈ fs, bs'[i]? = bs[i]?) → Linked N bs' root fs
  | [], _, h, _ => h
  | i :: fs, _, ⟨h1, nxt, h2, h3⟩, hc =>
    ⟨h1, nxt, (hc i (by simp)).trans h2, h3.congr fun j hj => hc j (by simp [hj])⟩

theorem lt_of_getElem? {A : Type} {l : List A} {i : Nat} {a : A} (h : l[i]? = some a) : i < l.length := by
  rcases Nat.lt_or_ge i l.length with h1 | h1
  · exact h1
  · rw [List.getElem?_eq_none h1] at h; cases h

theorem zeroMask_set {N : Nat} (w : Word) (hN : 0 < N) :
    ((zeroMask N).set 0 w)[0]? = some w ∧ ((zeroMask N).set 0 w).set 0 0 = zeroMask N := by
  obtain ⟨n, rfl⟩ : ∃ n, N = n + 1 := ⟨N - 1, by omega⟩
  simp [zeroMask, List.replicate_succ]

theorem LvRel.step {N : Nat} {G : Owned} {I : Level} {P : PLevel} (h : LvRel N G I P) (hN : 0 < N)
    (hlen : P.blocks.length < 2 ^ 64 - 1) {op : LvOp} (ho : op.Legal N G) :
    ∃ I' P' o, I.stepLv N op = .ok (I', o) ∧ P.stepLv N op = .ok (P', o) ∧
      LvRel N (G.after N op o) I' P' ∧ (op = .alloc → ∃ i, o = some i ∧ i ≠ 0 ∧ G i = none) ∧
      P'.blocks.length ≤ P.blocks.length + 1 := by
  cases op with
  | write i b =>
    obtain ⟨hg, hb⟩ := ho
    cases hgi : G i with
    | none => exact absurd hgi hg
    | some b0 =>
      obtain ⟨o1, o2, -⟩ := h.owned i b0 hgi
      have l1 := lt_of_getElem? o1
      have l2 := lt_of_getElem? o2
      have hi0 : i ≠ 0 := by intro e; rw [e, h.zeroG] at hgi; cases hgi
      refine ⟨{ I with blocks := I.blocks.set i b }, { P with blocks := P.blocks.set i b }, none, ?_, ?_,
        ?_, fun e => (by cases e), by simp⟩
      · simp only [Level.stepLv, setU_ok _ l1, bind_ok, pure_eq_ok]
      · simp only [PLevel.stepLv, setU_ok _ l2, bind_ok, pure_eq_ok]
      · refine ⟨h.single, by simp [h.len], by simpa using h.zero, ?_, ?_, ?_, ?_, h.nodup, ?_, ?_⟩
        · rw [List.getElem?_set_ne hi0]; exact h.zeroI
        · rw [List.getElem?_set_ne hi0]; exact h.zeroP
        · show (if 0 = i then some b else G 0) = none
          rw [if_neg (Ne.symm hi0)]; exact h.zeroG
        · intro j c hj
          have hj : (if j = i then some b else G j) = some c := hj
          by_cases e : j = i
          · rw [if_pos e] at hj
            cases hj
            subst e
            exact ⟨by simp [l1], by simp [l2], hb⟩
          · rw [if_neg e] at hj
            simp only [List.getElem?_set_ne (Ne.symm e)]
            exact h.owned j c hj
        · intro j hj
          obtain ⟨f1, f2, f3⟩ := h.free j hj
          have e : j ≠ i := by intro e; rw [e, hgi] at f2; cases f2
          refine ⟨f1, ?_, ?_⟩
          · show (if j = i then some b else G j) = none
            rw [if_neg e]; exact f2
          · simp only [List.getElem?_set_ne (Ne.symm e)]; exact f3
        · refine h.linked.congr fun j hj => ?_
          obtain ⟨f1, f2, f3⟩ := h.free j hj
          have e : j ≠ i := by intro e; rw [e, hgi] at f2; cases f2
          simp only [List.getElem?_set_ne (Ne.symm e)]
  | free i =>
    have ho : G i = some (Block.empty N) := ho
    obtain ⟨o1, o2, -⟩ := h.owned i _ ho
    have l1 := lt_of_getElem? o1
    have hi0 : i ≠ 0 := by intro e; rw [e, h.zeroG] at ho; cases ho
    have hz : 0 < (zeroMask N).length := by simp [zeroMask]; omega
    refine ⟨⟨I.single, I.blocks.set i ⟨(zeroMask N).set 0 I.rootEmpty, List.replicate (width N) 0⟩,
        BitVec.ofNat 64 i⟩, { P with free := i :: P.free }, none, ?_, rfl, ?_, fun e => (by cases e), by simp⟩
    · simp only [Level.stepLv, Level.removeEmpty, h.single, getU, o1, bind_ok, pure_eq_ok, Block.empty,
        setU_ok _ hz, setU_ok _ l1, Bool.false_eq_true, if_false]
    · refine ⟨h.single, by simp [h.len], h.zero, ?_, h.zeroP, ?_, ?_, ?_, ?_, ?_⟩
      · rw [List.getElem?_set_ne hi0]; exact h.zeroI
      · show (if 0 = i then none else G 0) = none
        rw [if_neg (Ne.symm hi0)]; exact h.zeroG
      · intro j c hj
        have hj : (if j = i then none else G j) = some c := hj
        by_cases e : j = i
        · rw [if_pos e] at hj; cases hj
        · rw [if_neg e] at hj
          simp only [List.getElem?_set_ne (Ne.symm e)]
          exact h.owned j c hj
      · rw [List.nodup_cons]
        refine ⟨fun hm => ?_, h.nodup⟩
        rw [(h.free i hm).2.1] at ho; cases ho
      · intro j hj
        rcases List.mem_cons.1 hj with e | hj
        · subst e
          refine ⟨hi0, ?_, o2⟩
          show (if j = j then none else G j) = none
          rw [if_pos rfl]
        · obtain ⟨f1, f2, f3⟩ := h.free j hj
          have e : j ≠ i := by intro e; rw [e, ho] at f2; cases f2
          refine ⟨f1, ?_, f3⟩
          show (if j = i then none else G j) = none
          rw [if_neg e]; exact f2
      · refine ⟨rfl, I.rootEmpty, by simp [l1], h.linked.congr fun j hj => ?_⟩
        obtain ⟨f1, f2, f3⟩ := h.free j hj
        have e : j ≠ i := by intro e; rw [e, ho] at f2; cases f2
        simp only [List.getElem?_set_ne (Ne.symm e)]
  | alloc =>
    cases hf : P.free with
    | nil =>
      have hl := h.linked
      rw [hf] at hl
      have hl : I.rootEmpty = freeEnd := hl
      refine ⟨{ I with blocks := I.blocks ++ [Block.empty N] }, ⟨P.blocks ++ [Block.empty N], P.free⟩,
        some P.blocks.length, ?_, ?_, ?_, fun _ => ⟨_, rfl, by have := h.zero; omega, ?_⟩, by simp⟩
      · simp only [Level.stepLv, Level.insertEmpty, Level.popEmpty, h.single, hl, if_true, bind_ok,
          pure_eq_ok, Bool.false_eq_true, if_false, h.len]
      · simp only [PLevel.stepLv, PLevel.insertEmpty, hf]
      · have hG : ∀ i, P.blocks.length ≤ i → G i = none := by
          intro i hi
          cases hg : G i with
          | none => rfl
          | some b => have := lt_of_getElem? (h.owned i b hg).2.1; omega
        have hz := h.zero
        refine ⟨h.single, by simp [h.len], by simp, ?_, ?_, ?_, ?_, h.nodup, ?_, ?_⟩
        · rw [List.getElem?_append_left (by rw [h.len]; exact h.zero)]; exact h.zeroI
        · rw [List.getElem?_append_left h.zero]; exact h.zeroP
        · show (if 0 = P.blocks.length then _ else G 0) = none
          rw [if_neg (by omega)]; exact h.zeroG
        · intro j c hj
          have hj : (if j = P.blocks.length then some (Block.empty N) else G j) = some c := hj
          by_cases e : j = P.blocks.length
          · rw [if_pos e] at hj
            cases hj
            subst e
            exact ⟨by rw [← h.len]; simp, by simp, by simp [Block.empty, zeroMask]⟩
          · rw [if_neg e] at hj
            obtain ⟨o1, o2, o3⟩ := h.owned j c hj
            refine ⟨?_, ?_, o3⟩
            · simp only
              rw [List.getElem?_append_left (lt_of_getElem? o1)]; exact o1
            · rw [List.getElem?_append_left (lt_of_getElem? o2)]; exact o2
        · rw [hf]; simp
        · rw [hf]; exact hl
      · cases hg : G P.blocks.length with
        | none => rfl
        | some b => have := lt_of_getElem? (h.owned _ b hg).2.1; omega
    | cons i fs =>
      have hl := h.linked
      rw [hf] at hl
      obtain ⟨hr, nxt, hb, hl'⟩ := hl
      obtain ⟨f1, f2, f3⟩ := h.free i (by rw [hf]; simp)
      have hi := lt_of_getElem? f3
      have l1 := lt_of_getElem? hb
      have hz : 0 < ((zeroMask N).set 0 nxt).length := by simp [zeroMask]; omega
      obtain ⟨z1, z2⟩ := zeroMask_set (N := N) nxt hN
      have hti : (BitVec.ofNat 64 i).toNat = i := by
        rw [BitVec.toNat_ofNat]; exact Nat.mod_eq_of_lt (by omega)
      have hne : I.rootEmpty ≠ freeEnd := by
        intro e
        have : (BitVec.ofNat 64 i).toNat = freeEnd.toNat := by rw [← hr, e]
        rw [hti] at this
        have h2 : freeEnd.toNat = 2 ^ 64 - 1 := by decide
        omega
      have hn := h.nodup
      rw [hf, List.nodup_cons] at hn
      refine ⟨⟨I.single, I.blocks.set i (Block.empty N), nxt⟩, ⟨P.blocks, fs⟩, some i, ?_, ?_, ?_,
        fun _ => ⟨_, rfl, f1, f2⟩, by simp⟩
      · have ht : I.rootEmpty.toNat = i := by rw [hr, hti]
        simp only [Level.stepLv, Level.insertEmpty, Level.popEmpty, h.single, if_neg hne, ht, getU, hb, z1,
          bind_ok, setU_ok _ hz, setU_ok _ l1, pure_eq_ok, Bool.false_eq_true, if_false, z2, Block.empty]
      · simp only [PLevel.stepLv, PLevel.insertEmpty, hf]
      · refine ⟨h.single, by simp [h.len], h.zero, ?_, h.zeroP, ?_, ?_, hn.2, ?_, ?_⟩
        · rw [List.getElem?_set_ne f1]; exact h.zeroI
        · show (if 0 = i then _ else G 0) = none
          rw [if_neg (Ne.symm f1)]; exact h.zeroG
        · intro j c hj
          have hj : (if j = i then some (Block.empty N) else G j) = some c := hj
          by_cases e : j = i
          · rw [if_pos e] at hj
            cases hj
            subst e
            exact ⟨by simp [l1], f3, by simp [Block.empty, zeroMask]⟩
          · rw [if_neg e] at hj
            simp only [List.getElem?_set_ne (Ne.symm e)]
            exact h.owned j c hj
        · intro j hj
          obtain ⟨g1, g2, g3⟩ := h.free j (by rw [hf]; exact List.mem_cons_of_mem _ hj)
          have e : j ≠ i := by intro e; subst e; exact hn.1 hj
          refine ⟨g1, ?_, g3⟩
          show (if j = i then _ else G j) = none
          rw [if_neg e]; exact g2
        · refine hl'.congr fun j hj => ?_
          have e : j ≠ i := by intro e; subst e; exact hn.1 hj
          simp only [List.getElem?_set_ne (Ne.symm e)]

theorem LvRel.run {N : Nat} (hN : 0 < N) : ∀ (ops : List LvOp) {G : Owned} {I : Level} {P : PLevel},
    LvRel N G I P → LegalUse N P G ops → P.blocks.length + ops.length < 2 ^ 64 →
    ∃ I' P' os G', runLv (Level.stepLv N) I ops = .ok (I', os) ∧
      runLv (PLevel.stepLv N) P ops = .ok (P', os) ∧ GoodUse N G ops os G' ∧ LvRel N G' I' P'
  | [], G, I, P, h, _, _ => ⟨I, P, [], G, rfl, rfl, rfl, h⟩
  | op :: ops, G, I, P, h, hl, hb => by
    simp only [List.length_cons] at hb
    obtain ⟨I1, P1, o, e1, e2, h1, ha, hle⟩ := h.step hN (by omega) hl.1
    obtain ⟨I', P', os, G', e3, e4, g, h'⟩ := LvRel.run hN ops h1 (hl.2 P1 o e2) (by omega)
    refine ⟨I', P', o :: os, G', ?_, ?_, ⟨hl.1, ha, g⟩, h'⟩
    · simp only [runLv, e1, bind_ok, e3, pure_eq_ok]
    · simp only [runLv, e2, bind_ok, e4, pure_eq_ok]

theorem LvRel.init (N : Nat) : LvRel N (fun _ => none) (Level.default N false) (PLevel.default N) :=
  ⟨rfl, rfl, by simp [PLevel.default], rfl, rfl, rfl, fun _ _ h => (by cases h), by simp [PLevel.default],
    by simp [PLevel.default], rfl⟩

end Hibit.Sparse
