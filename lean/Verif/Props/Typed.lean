import Verif.Typed.Tree
import Verif.Props.Sparse
import Verif.Props.Trees
/-!
# Property C72: SparseTree through its level tuple and erased block pointers

`Typed.run`, `Typed.impl` (`Verif/Typed/Model.lean`) execute the code as written: levels are elements of a tuple
of one to eight different types, reached only by the arms the macro generates; blocks are reached by
untyped pointers cast to the block type of a static level. There an access through a pointer into a
reallocated buffer, a cast to another block type, and an access outside the buffer return `ub`.
-/
namespace Hibit.Props
open Hibit Hibit.Sparse

section
variable {α : Type} {N D : Nat} {dflt : Option α} {ops : List (Op α)}

/-- **C72**: every supported history on a new SparseTree, in each shipped configuration, runs without a wrong
cast, a dangling pointer or any other failure; every call returns what it returns on the map; afterwards `get`
and iteration are the map's. -/
theorem C72_typed (h : SparseHistory N D dflt ops) :
    ∃ g, Typed.run N D (Typed.default α N D dflt) ops = .ok (g, (specRun dflt emptyMap ops).2) ∧
      GetIterIs (Typed.impl α N D) g (specRun dflt emptyMap ops).1 ∧
      IsTreeC (Typed.impl α N D) g (specRun dflt emptyMap ops).1 := by
  obtain ⟨t, e, -⟩ := C19_sparse_map h
  obtain ⟨⟨g, o⟩, e', T, q⟩ := (Typed.run_rel h.cfg.pos h.cfg.le N ops (Typed.default_tr N dflt)).ok_inv e
  simp only at q T
  subst q
  obtain ⟨TS, K, L, hc⟩ := sparse_isTree h ⟨_, e⟩
  have ht : IsTreeC (Typed.impl α N D) g (specRun dflt emptyMap ops).1 :=
    ⟨TS, _, Typed.lawfulC_typed h.cfg.pos h.cfg.le T L, hc⟩
  exact ⟨g, e', getIter ht.isTree, ht⟩

/-- **C72**, cursors: along any legal sequence of moves the pointers a cursor has stored are never dangling and
never cast to another type; the masks and the data are those of the map. -/
theorem C72_cursor (h : SparseHistory N D dflt ops) :
    ∃ g, Typed.run N D (Typed.default α N D dflt) ops = .ok (g, (specRun dflt emptyMap ops).2) ∧
      ∃ B, MaskSpec (width N) D true (specRun dflt emptyMap ops).1 B ∧
      ∃ c0, (Typed.impl α N D).new g = .ok c0 ∧
      ∀ moves last, LegalMoves (width N) D B none (moves ++ [last]) → last.checked = true →
        ∃ masks c p, runMoves (Typed.impl α N D) g c0 (moves ++ [last]) = .ok (masks, c) ∧
          MasksAre N B masks (movePaths none (moves ++ [last])) ∧
          (movePaths none (moves ++ [last])).getLast? = some p ∧
          (p.length + 1 = D → ∀ k, k < width N → (Typed.impl α N D).curData c g k =
            .ok ((specRun dflt emptyMap ops).1 (unpath (width N) (p ++ [k])))) := by
  obtain ⟨g, e, -, ht⟩ := C72_typed h
  exact ⟨g, e, contract_cursor_data ht⟩

/-- **C72**, for every history at all (keys out of range, index types exhausted): the code with its tuple and
pointers ends as the code with a plain array of levels does, with the same results or the same failure. So
the findings about the latter are about the former. -/
theorem C72_same (hc : Cfg N D) (ops : List (Op α)) :
    (∃ t g outs, run N D (Sparse.default α N D dflt) ops = .ok (t, outs) ∧
      Typed.run N D (Typed.default α N D dflt) ops = .ok (g, outs) ∧
      ∀ k, (Typed.impl α N D).get g k = (impl α N D).get t k) ∨
    ∃ e, run N D (Sparse.default α N D dflt) ops = .error e ∧
      Typed.run N D (Typed.default α N D dflt) ops = .error e := by
  have h := Typed.run_rel hc.pos hc.le N ops (Typed.default_tr (α := α) (D := D) N dflt)
  generalize run N D (Sparse.default α N D dflt) ops = x at h
  generalize Typed.run N D (Typed.default α N D dflt) ops = y at h
  cases h with
  | @ok a b q =>
    obtain ⟨t, outs⟩ := a
    obtain ⟨g, outs'⟩ := b
    obtain ⟨T, q⟩ := q
    simp only at T q
    subst q
    exact .inl ⟨t, g, _, rfl, rfl, fun k => Typed.get_rel hc.pos hc.le N T k⟩
  | err => exact .inr ⟨_, rfl, rfl⟩

/-- **C72**, memory safety with arbitrary `usize` keys. -/
theorem C72_safe (hc : Cfg N D) (ops : List (Op α))
    (hb : Always dflt (Fits (width N) D idxCap) emptyMap ops)
    (hd : ∀ k, Op.getOrDefault k ∈ ops → dflt.isSome) :
    ∀ e, Typed.run N D (Typed.default α N D dflt) ops = .error e →
      e = .panic ∧ ∃ op ∈ ops, ¬ op.Ok (keyRange N D) dflt := by
  intro e he
  rcases C72_same (dflt := dflt) hc ops with ⟨t, g, outs, -, e2, -⟩ | ⟨e', e1, e2⟩
  · rw [e2] at he; cases he
  · rw [e2] at he
    cases he
    exact C22_memory_safe hc ops hb hd _ e1

end

/-! ## The generated visitors -/

section
variable {gl : List Typed.GLevel}

/-- **C72**, `visit`/`visit_mut`/`visit_type`: for a tuple of one to eight levels the visitor gets the level (and
the block type) of the given number, and `visit_mut` changes no other; a number outside the tuple panics. -/
theorem C72_visit (h1 : 1 ≤ gl.length) (h8 : gl.length ≤ 8) {β : Type} (i : Nat) :
    (∀ f : Nat → Typed.GLevel → R β, Typed.visit gl i f = match gl[i]? with
      | some L => f i L
      | none => .error .panic) ∧
    (∀ f : Nat → Typed.GLevel → R (β × Typed.GLevel), Typed.visitMut gl i f = match gl[i]? with
      | some L => f i L >>= fun r => .ok (r.1, gl.set i r.2)
      | none => .error .panic) ∧
    (∀ f : Nat → R β, i < gl.length → Typed.visitType gl.length i f = f (idxBits i)) := by
  refine ⟨fun f => ?_, fun f => ?_, fun f hi => Typed.visitType_eq h1 h8 hi f⟩
  · rw [Typed.visit_eq h1 h8]
    unfold getP
    cases gl[i]? <;> rfl
  · rw [Typed.visitMut_eq h1 h8]
    unfold getP
    cases gl[i]? <;> rfl

/-- A fold over numbered levels that stops at `Break`. -/
def foldUntil {σ L : Type} (v : σ → Nat → L → R (σ × Bool)) : List (Nat × L) → σ → R σ
  | [], s => .ok s
  | (i, L) :: ls, s => v s i L >>= fun r => if r.2 then .ok r.1 else foldUntil v ls r.1

/-- The levels with their numbers. -/
def numbered {L : Type} (l : List L) : List (Nat × L) := (List.range l.length).zip l

theorem foldUntil_visitList {σ : Type} (v : σ → Nat → Typed.GLevel → R (σ × Bool)) (gl : List Typed.GLevel) :
    ∀ (m k : Nat) (s : σ), k + m ≤ gl.length →
    (visitList (fun s i => getP gl i >>= v s i) (List.range' k m) s >>= fun r => Except.ok r.1) =
      foldUntil v ((List.range' k m).zip (gl.drop k)) s
  | 0, k, s, _ => rfl
  | m + 1, k, s, h => by
    have hlt : k < gl.length := by omega
    rw [List.range'_succ, List.drop_eq_getElem_cons hlt, List.zip_cons_cons, visitList, foldUntil,
      getP_some (List.getElem?_eq_getElem hlt)]
    simp only [bind_ok, bind_assoc_R]
    congr 1; funext r
    obtain ⟨s', b⟩ := r
    cases b with
    | true => rfl
    | false => exact foldUntil_visitList v gl m (k + 1) s' (by omega)

theorem zip_take_left {A B : Type} : ∀ (l : List A) (l' : List B) (n : Nat),
    (l.take n).zip l' = (l.zip l').take n
  | [], _, n => by simp
  | _ :: _, [], n => by cases n <;> simp
  | a :: l, b :: l', 0 => by simp
  | a :: l, b :: l', n + 1 => by simp [zip_take_left l l' n]

/-- **C72**, `fold_n` (and `fold`, with `n` the number of levels): the visitor sees the first `n` levels, in
order, each with its number, until it breaks. -/
theorem C72_fold (h1 : 1 ≤ gl.length) (h8 : gl.length ≤ 8) {σ : Type} (n : Nat)
    (v : σ → Nat → Typed.GLevel → R (σ × Bool)) (s : σ) :
    Typed.foldN gl n v s = foldUntil v ((numbered gl).take n) s ∧
    Typed.fold gl v s = foldUntil v (numbered gl) s := by
  have key : ∀ n, Typed.foldN gl n v s = foldUntil v ((numbered gl).take n) s := by
    intro n
    rw [Typed.foldN_eq h1 h8, List.range_eq_range',
      foldUntil_visitList v gl _ 0 s (by omega), List.drop_zero]
    unfold numbered
    rw [← zip_take_left, List.take_range, List.range_eq_range']
  refine ⟨key n, ?_⟩
  unfold Typed.fold
  rw [key]
  congr 1
  rw [List.take_of_length_le]
  simp [numbered]

/-- A fold that replaces the levels it visits, first level first. -/
def foldChange {σ L : Type} (v : σ → Nat → L → R ((σ × L) × Bool)) : (i : Nat) → σ → List L → R (σ × List L)
  | _, s, [] => .ok (s, [])
  | i, s, L :: ls => v s i L >>= fun r =>
    if r.2 then .ok (r.1.1, r.1.2 :: ls)
    else foldChange v (i + 1) r.1.1 ls >>= fun q => .ok (q.1, r.1.2 :: q.2)

/-- The same, last level first; the flag says that the visitor broke. -/
def foldChangeRev {σ L : Type} (v : σ → Nat → L → R ((σ × L) × Bool)) :
    (i : Nat) → σ → List L → R ((σ × List L) × Bool)
  | _, s, [] => .ok ((s, []), false)
  | i, s, L :: ls => foldChangeRev v (i + 1) s ls >>= fun q =>
    if q.2 then .ok ((q.1.1, L :: q.1.2), true)
    else v q.1.1 i L >>= fun r => .ok ((r.1.1, r.1.2 :: q.1.2), r.2)

/-- The visitor on a whole tuple. -/
def onTuple {σ : Type} (v : σ → Nat → Typed.GLevel → R ((σ × Typed.GLevel) × Bool))
    (s : σ × List Typed.GLevel) (i : Nat) : R ((σ × List Typed.GLevel) × Bool) :=
  getP s.2 i >>= fun L => v s.1 i L >>= fun r => .ok ((r.1.1, s.2.set i r.1.2), r.2)

theorem foldChange_visitList {σ : Type} (v : σ → Nat → Typed.GLevel → R ((σ × Typed.GLevel) × Bool)) :
    ∀ (suf pre : List Typed.GLevel) (s : σ),
    (visitList (onTuple v) (List.range' pre.length suf.length) (s, pre ++ suf) >>= fun r => Except.ok r.1) =
      (foldChange v pre.length s suf >>= fun q => .ok (q.1, pre ++ q.2))
  | [], pre, s => rfl
  | L :: suf, pre, s => by
    have hg : (pre ++ L :: suf)[pre.length]? = some L := by simp
    rw [List.length_cons, List.range'_succ, visitList, foldChange]
    simp only [onTuple, bind_assoc_R]
    rw [getP_some hg]
    simp only [bind_ok]
    congr 1; funext r
    obtain ⟨⟨s', L'⟩, b⟩ := r
    have hs : (pre ++ L :: suf).set pre.length L' = pre ++ L' :: suf := by simp
    simp only [hs]
    cases b with
    | true => rfl
    | false =>
      have ih := foldChange_visitList v suf (pre ++ [L']) s'
      simp only [List.length_append, List.length_singleton, List.append_assoc, List.singleton_append] at ih
      show (visitList (onTuple v) (List.range' (pre.length + 1) suf.length) (s', pre ++ L' :: suf) >>= _) = _
      rw [ih]
      simp only [Bool.false_eq_true, if_false, bind_assoc_R, bind_ok]

theorem foldChangeRev_visitList {σ : Type} (v : σ → Nat → Typed.GLevel → R ((σ × Typed.GLevel) × Bool)) :
    ∀ (suf pre : List Typed.GLevel) (s : σ),
    visitList (onTuple v) (List.range' pre.length suf.length).reverse (s, pre ++ suf) =
      (foldChangeRev v pre.length s suf >>= fun q => .ok ((q.1.1, pre ++ q.1.2), q.2))
  | [], pre, s => by simp [visitList, foldChangeRev]
  | L :: suf, pre, s => by
    have ih := foldChangeRev_visitList v suf (pre ++ [L]) s
    simp only [List.length_append, List.length_singleton, List.append_assoc, List.singleton_append] at ih
    rw [List.length_cons, List.range'_succ, List.reverse_cons, visitList_append, ih, foldChangeRev]
    simp only [bind_assoc_R, bind_ok]
    congr 1; funext q
    obtain ⟨⟨s', ls⟩, b⟩ := q
    cases b with
    | true => rfl
    | false =>
      have hg : (pre ++ L :: ls)[pre.length]? = some L := by simp
      simp only [Bool.false_eq_true, if_false]
      rw [visitList]
      simp only [onTuple, bind_assoc_R]
      rw [getP_some hg]
      simp only [bind_ok]
      congr 1; funext r
      obtain ⟨⟨s'', L'⟩, b⟩ := r
      have hs : (pre ++ L :: ls).set pre.length L' = pre ++ L' :: ls := by simp
      simp only [hs]
      cases b <;> rfl

/-- **C72**, `fold_mut` and `fold_rev_mut`: the visitor sees every level once, in ascending or descending order,
with its number, until it breaks; the visited levels are replaced by what it left in them, the others are
unchanged. -/
theorem C72_fold_mut (h1 : 1 ≤ gl.length) (h8 : gl.length ≤ 8) {σ : Type}
    (v : σ → Nat → Typed.GLevel → R ((σ × Typed.GLevel) × Bool)) (s : σ) :
    Typed.foldMut gl v s = foldChange v 0 s gl ∧
    Typed.foldRevMut gl v s = (foldChangeRev v 0 s gl >>= fun r => .ok r.1) := by
  constructor
  · rw [Typed.foldMut_eq h1 h8, List.range_eq_range']
    have := foldChange_visitList v gl [] s
    simp only [List.length_nil, List.nil_append] at this
    refine Eq.trans this ?_
    cases foldChange v 0 s gl <;> rfl
  · rw [Typed.foldRevMut_eq h1 h8, List.range_eq_range']
    have := foldChangeRev_visitList v gl [] s
    simp only [List.length_nil, List.nil_append] at this
    show (visitList (onTuple v) _ _ >>= _) = _
    rw [this]
    cases foldChangeRev v 0 s gl <;> rfl

end

/-! ### The hypotheses are met -/

/-- `exOpsS` through the tuple, computed by the kernel: outputs, lookups, iteration. -/
example : (do
    let r ← Typed.run 2 2 (Typed.default Nat 2 2 (some 9)) exOpsS
    let it ← (Typed.impl Nat 2 2).iterRun r.1 20 4
    return (r.2.map (·.1), ← (Typed.impl Nat 2 2).get r.1 5, it) : R _) =
    .ok ([none, none, none, some 7, none, some 1, none, none, some 202, none, some 9, some 56], some 56,
      [some (5, 56), some (128, 136), some (200, 404), none]) := by decide +kernel

example : ∃ g, Typed.run 2 2 (Typed.default Nat 2 2 (some 9)) exOpsS =
    .ok (g, (specRun (some 9) emptyMap exOpsS).2) := by
  obtain ⟨g, e, -⟩ := C72_typed exOpsS_history
  exact ⟨g, e⟩

/-- A tuple of three levels, numbered by their buffers. -/
def exTuple : List Typed.GLevel := [⟨Level.default 1 true, 10⟩, ⟨Level.default 1 false, 11⟩, ⟨Level.default 1 false, 12⟩]

/-- The visitors on it: the levels seen by `fold_n(2)`, by `fold_rev_mut` breaking at level 1, by `visit(2)`. -/
example : Typed.foldN exTuple 2 (fun s i L => .ok (s ++ [(i, L.gen)], false)) [] = .ok [(0, 10), (1, 11)] ∧
    ((Typed.foldRevMut exTuple (fun s i L => .ok ((s ++ [(i, L.gen)], ⟨L.level, L.gen + 5⟩), i == 1)) []).map
      fun r => (r.1, r.2.map (·.gen))) = .ok ([(2, 12), (1, 11)], [10, 16, 17]) ∧
    Typed.visit exTuple 2 (fun i L => .ok (i, L.gen)) = .ok (2, 12) ∧
    Typed.visit exTuple 3 (fun i L => .ok (i, L.gen)) = .error .panic := by
  refine ⟨rfl, rfl, rfl, rfl⟩

/-- The model does distinguish: a cursor that outlives an insertion (which safe Rust rejects) has a dangling
pointer, and a pointer to a level-1 block cannot be read as a root block. -/
example : (do
    let r ← Typed.run 1 3 (Typed.default Nat 1 3 none) [.insert 5 50]
    let c ← (Typed.impl Nat 1 3).new r.1
    let m ← runMoves (Typed.impl Nat 1 3) r.1 c [⟨true, 0, 0⟩, ⟨true, 1, 0⟩]
    let r2 ← Typed.run 1 3 r.1 [.insert 5000 51]
    let bad ← (Typed.impl Nat 1 3).select m.2 r2.1 2 0
    return bad.1 : R _) = .error .ub ∧
    Typed.readAs exTuple ⟨1, 11, 0⟩ (idxBits 0) = .error .ub ∧
    (Typed.readAs exTuple ⟨1, 11, 0⟩ (idxBits 1)).isOk := by
  refine ⟨by decide +kernel, rfl, rfl⟩

end Hibit.Props
