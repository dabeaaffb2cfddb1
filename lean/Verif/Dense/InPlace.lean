import Verif.Dense.MatSparse
import Verif.Dense.History
/-!
# Operations on a tree whose branch headers have a wrong length

`fixT` repairs the header lengths of branch nodes. Operations that neither create nor free nodes do
not read these lengths: they commute with `fixT`.
-/
namespace Hibit.Dense
open Hibit

theorem fixLen_term {n : Node} (h : n.kind = .term) : fixLen n = n := by
  unfold fixLen; rw [if_neg (by rw [h]; decide)]

theorem fixHeap_put (h : Heap) (a : Nat) (n : Node) :
    fixHeap (h.put a n) = (fixHeap h).put a (fixLen n) := by
  unfold fixHeap Heap.put
  congr 1
  funext b
  by_cases e : b = a
  · subst e; simp
  · simp [upd_ne _ _ e]

theorem fixHeap_alloc (h : Heap) (n : Node) :
    fixHeap (h.alloc n).1 = ((fixHeap h).alloc (fixLen n)).1 := by
  unfold fixHeap Heap.alloc
  simp only
  congr 1
  funext b
  by_cases e : b = h.next
  · subst e; simp
  · simp [upd_ne _ _ e]

theorem fixLen_setCells (n : Node) (c : List Cell) :
    fixLen { n with cells := c } = { fixLen n with cells := c } := by
  unfold fixLen
  split <;> rfl

theorem derefMut_fix (h : Heap) (p : Ptr) :
    derefMut (fixHeap h) p = (derefMut h p).map (fun x => (x.1, fixLen x.2)) := by
  cases p with
  | stat i => rfl
  | heap a =>
    simp only [derefMut, fixHeap]
    cases h.node a <;> rfl

theorem nodeGrow_term_fix (h : Heap) (a : Nat) (n : Node) (hn : n.kind = .term) :
    nodeGrow (fixHeap h) .term a n = (nodeGrow h .term a n).map (fun x => (fixHeap x.1, x.2)) := by
  unfold nodeGrow
  by_cases hc : n.len = n.cap
  · simp only [if_pos hc]
    by_cases hc2 : n.cap * 2 < 256
    · simp only [if_pos hc2, bind_ok, dealloc_fix]
      cases h.dealloc a .term n.cap with
      | error e => rfl
      | ok h1 =>
        simp only [Except.map, bind_ok, pure_eq_ok]
        rw [fixHeap_alloc, fixLen_term]
        · rfl
        · exact hn
    · simp only [if_neg hc2]; rfl
  · simp only [if_neg hc]; rfl

theorem nodeGrow_kind {h : Heap} {k : Kind} {a : Nat} {n : Node} {h' : Heap} {a' : Nat} {n' : Node}
    (e : nodeGrow h k a n = .ok (h', a', n')) : n'.kind = n.kind := by
  unfold nodeGrow at e
  by_cases hc : n.len = n.cap
  · simp only [if_pos hc] at e
    by_cases hc2 : n.cap * 2 < 256
    · simp only [if_pos hc2, bind_ok] at e
      cases hd : h.dealloc a k n.cap with
      | error x => rw [hd] at e; cases e
      | ok h1 =>
        rw [hd] at e
        simp only [bind_ok, pure_eq_ok, Except.ok.injEq, Prod.mk.injEq] at e
        rw [← e.2.2]
    · simp only [if_neg hc2] at e; cases e
  · simp only [if_neg hc, pure_eq_ok, Except.ok.injEq, Prod.mk.injEq] at e
    rw [← e.2.2]

theorem nodeInsert_term_fix (h : Heap) (p : Ptr) (i : Nat) (v : Cell) :
    nodeInsert (fixHeap h) .term p i v =
      (nodeInsert h .term p i v).map (fun x => (fixHeap x.1, x.2)) := by
  unfold nodeInsert
  rw [derefMut_fix]
  cases derefMut h p with
  | error e => rfl
  | ok x =>
    obtain ⟨a, n⟩ := x
    simp only [Except.map, bind_ok, fixLen_kind]
    by_cases hk : n.kind = .term
    · rw [if_neg (by simp [hk]), if_neg (by simp [hk]), fixLen_term hk, nodeGrow_term_fix h a n hk]
      cases hg : nodeGrow h .term a n with
      | error e => rfl
      | ok y =>
        obtain ⟨h1, a1, n1⟩ := y
        have hk1 := (nodeGrow_kind hg).trans hk
        simp only [Except.map, bind_ok]
        cases setBitUnchecked true n1.mask i with
        | error e => rfl
        | ok m =>
          simp only [bind_ok]
          cases denseIndex m.2 i with
          | error e => rfl
          | ok d =>
            simp only [bind_ok]
            by_cases c1 : d ≤ n1.len
            · simp only [if_pos c1, bind_ok]
              cases copyCells n1.cells d (d + 1) (n1.len - d) with
              | error e => rfl
              | ok cs =>
                simp only [bind_ok]
                cases setU cs d v with
                | error e => rfl
                | ok cs' =>
                  simp only [bind_ok]
                  by_cases c2 : n1.len + 1 < 256
                  · simp only [if_pos c2, bind_ok, pure_eq_ok, fixHeap_put]
                    rw [fixLen_term]
                    exact hk1
                  · simp only [if_neg c2]; rfl
            · simp only [if_neg c1]; rfl
    · rw [if_pos (by simp [hk]), if_pos (by simp [hk])]

theorem nodeRemove_term_fix (h : Heap) (p : Ptr) (i : Nat) :
    nodeRemove (fixHeap h) .term p i = (nodeRemove h .term p i).map fixHeap := by
  unfold nodeRemove
  rw [derefMut_fix]
  cases derefMut h p with
  | error e => rfl
  | ok x =>
    obtain ⟨a, n⟩ := x
    simp only [Except.map, bind_ok, fixLen_kind]
    by_cases hk : n.kind = .term
    · rw [if_neg (by simp [hk]), if_neg (by simp [hk]), fixLen_term hk]
      cases denseIndex n.mask i with
      | error e => rfl
      | ok d =>
        simp only [bind_ok]
        cases setBitUnchecked false n.mask i with
        | error e => rfl
        | ok m =>
          simp only [bind_ok]
          by_cases c1 : d + 1 ≤ n.len
          · simp only [if_pos c1, bind_ok]
            cases copyCells n.cells (d + 1) d (n.len - d - 1) with
            | error e => rfl
            | ok cs =>
              simp only [bind_ok, pure_eq_ok, fixHeap_put]
              rw [fixLen_term]
              exact hk
          · simp only [if_neg c1]; rfl
    · rw [if_pos (by simp [hk]), if_pos (by simp [hk])]

theorem setChild_fix (h : Heap) (k : Kind) (p : Ptr) (i : Nat) (v : Cell) :
    setChild (fixHeap h) k p i v = (setChild h k p i v).map fixHeap := by
  unfold setChild
  rw [derefMut_fix]
  cases derefMut h p with
  | error e => rfl
  | ok x =>
    obtain ⟨a, n⟩ := x
    simp only [Except.map, bind_ok, fixLen_mask, fixLen_cells, fixLen_kind]
    by_cases hk : n.kind = k
    · rw [if_neg (by simp [hk]), if_neg (by simp [hk])]
      cases denseIndex n.mask i with
      | error e => rfl
      | ok d =>
        simp only [bind_ok]
        cases setU n.cells d v with
        | error e => rfl
        | ok cs =>
          simp only [bind_ok, pure_eq_ok, fixHeap_put, fixLen_setCells, fixLen_mask, fixLen_kind]
    · rw [if_pos (by simp [hk]), if_pos (by simp [hk])]

/-! ## The descent -/

/-- The loop state with all headers repaired. -/
def fixW (w : Walk) : Walk := { w with heap := fixHeap w.heap }

theorem read_fix (w : Walk) : (fixW w).read = w.read := by
  obtain ⟨h, root, slot⟩ := w
  cases slot with
  | root => rfl
  | cell a d =>
    simp only [Walk.read, fixW, fixHeap]
    cases h.node a with
    | none => rfl
    | some n => simp only [Option.map_some, unwrapU, bind_ok, fixLen_cells]

theorem write_fix (w : Walk) (p : Ptr) : (fixW w).write p = (w.write p).map fixW := by
  obtain ⟨h, root, slot⟩ := w
  cases slot with
  | root => rfl
  | cell a d =>
    simp only [Walk.write, fixW]
    cases e : h.node a with
    | none => simp only [fixHeap, e]; rfl
    | some n =>
      have : (fixHeap h).node a = some (fixLen n) := by simp [fixHeap, e]
      simp only [this, unwrapU, bind_ok, fixLen_cells, fixLen_kind]
      by_cases hk : n.kind = .branch
      · rw [if_neg (by simp [hk]), if_neg (by simp [hk])]
        cases setU n.cells d (.ptr p) with
        | error e => rfl
        | ok cs =>
          simp only [bind_ok, pure_eq_ok, Except.map, fixW, fixHeap_put, fixLen_setCells, fixLen_kind]
      · rw [if_pos (by simp [hk]), if_pos (by simp [hk])]; rfl

variable {D : Nat} {loc K : List Nat → Option Nat}

/-- One level of the descent into an existing child, with and without repaired headers. -/
theorem insertStep_fix {w : Walk} (H : TInv D (fixHeap w.heap) w.root loc K)
    {P : List Nat} (hP : ValidPath 64 P) {N a b : Nat} (hN : N + 2 ≤ D) (hPD : P.length = D)
    (ha : loc (P.take N) = some a) (hb : loc (P.take (N + 1)) = some b)
    (hs : SlotAt loc (cellsOf D loc K) w.slot (P.take N)) :
    ∃ s, insertStep D P w N = .ok ({ w with slot := s }, false) ∧
      insertStep D P (fixW w) N = .ok (fixW { w with slot := s }, false) ∧
      SlotAt loc (cellsOf D loc K) s (P.take (N + 1)) := by
  have hlt : N < P.length := by omega
  have hget : P[N]? = some P[N] := List.getElem?_eq_getElem hlt
  have htake := take_succ_of_getElem? hget
  generalize hi : P[N] = i at *
  have hi64 : i < 64 := by rw [← hi]; exact hP _ (List.getElem_mem _)
  rw [htake] at hb ⊢
  have hpl : (P.take N).length = N := by simp; omega
  generalize hp : P.take N = p at *
  obtain ⟨n, hd, hdm, hn, hk, hrep⟩ := H.rep.deref ha
  have hread : (fixW w).read = .ok (.heap a) := read_slot (w := fixW w) H ha hs
  have hcell : cellsOf D loc K p i = (loc (p ++ [i])).map (fun a => .ptr (.heap a)) :=
    cellsOf_branch (by omega) i
  have hc := hrep.contains hi64
  rw [hcell, hb] at hc
  simp only [Option.map_some, Option.isSome_some] at hc
  -- the unrepaired node
  obtain ⟨m, hm, rfl⟩ : ∃ m, w.heap.node a = some m ∧ fixLen m = n := by
    have : (w.heap.node a).map fixLen = some n := hn
    simpa [Option.map_eq_some_iff] using this
  have hd' : deref w.heap (.heap a) = .ok m := by simp [deref, hm, unwrapU]
  have hdm' : derefMut w.heap (.heap a) = .ok (a, m) := by simp [derefMut, hm, unwrapU]
  have hc' : m.contains i = .ok true := by
    unfold Node.contains at hc ⊢; rwa [fixLen_mask] at hc
  have hbits := hrep.bits
  have hdi := denseIndex_eq hbits hi64
  refine ⟨.cell a (rank (cellsOf D loc K p) i), ?_, ?_, ⟨p, i, rfl, ha, rfl⟩⟩
  · unfold insertStep
    rw [fixLen_mask] at hdi
    rw [read_fix] at hread
    simp only [getP_some hget, bind_ok, hread, hd', hc', if_true, hdm', hdi, pure_eq_ok]
  · unfold insertStep
    simp only [fixW] at hread ⊢
    simp only [getP_some hget, bind_ok, hread, hd, hc, if_true, hdm, hdi, pure_eq_ok]

/-- The whole descent to an existing terminal node. -/
theorem insertWalk_fix {α : Type} {t : DT α} (H : TInv D (fixHeap t.heap) t.root loc K)
    (hD9 : D ≤ 9) (hD1 : 1 ≤ D) {P : List Nat} (hP : ValidPath 64 P) (hPD : P.length = D) {b : Nat}
    (hb : loc (P.take (D - 1)) = some b) :
    ∃ s, insertWalk D t P = .ok ⟨t.heap, t.root, s⟩ ∧
      insertWalk D (fixT t) P = .ok ⟨fixHeap t.heap, t.root, s⟩ ∧
      SlotAt loc (cellsOf D loc K) s (P.take (D - 1)) := by
  have hlive : ∀ m, ∃ a, loc ((P.take (D - 1)).take m) = some a := fun m =>
    H.take_live _ rfl hb m
  have hlive' : ∀ m, m ≤ D - 1 → ∃ a, loc (P.take m) = some a := by
    intro m hm
    obtain ⟨a, ha⟩ := hlive m
    rw [List.take_take, Nat.min_eq_left hm] at ha
    exact ⟨a, ha⟩
  have key : ∀ (n m : Nat) (s : Slot), m + n = D - 1 →
      SlotAt loc (cellsOf D loc K) s (P.take m) →
      ∃ s', visitList (insertStep D P) ((List.range n).map (· + m)) ⟨t.heap, t.root, s⟩ =
          .ok (⟨t.heap, t.root, s'⟩, false) ∧
        visitList (insertStep D P) ((List.range n).map (· + m)) ⟨fixHeap t.heap, t.root, s⟩ =
          .ok (⟨fixHeap t.heap, t.root, s'⟩, false) ∧
        SlotAt loc (cellsOf D loc K) s' (P.take (D - 1)) := by
    intro n
    induction n with
    | zero =>
      intro m s hm hs
      have : m = D - 1 := by omega
      subst this
      exact ⟨s, rfl, rfl, hs⟩
    | succ n ih =>
      intro m s hm hs
      obtain ⟨a, ha⟩ := hlive' m (by omega)
      obtain ⟨b', hb'⟩ := hlive' (m + 1) (by omega)
      obtain ⟨s1, e1, e1', hs1⟩ := insertStep_fix (w := ⟨t.heap, t.root, s⟩) H hP (N := m)
        (by omega) hPD ha hb' hs
      simp only [fixW] at e1'
      obtain ⟨s2, e2, e2', hs2⟩ := ih (m + 1) s1 (by omega) hs1
      have hmap : (List.range n).map ((· + m) ∘ Nat.succ) = (List.range n).map (· + (m + 1)) := by
        apply List.map_congr_left; intro x _; simp; omega
      refine ⟨s2, ?_, ?_, hs2⟩
      · rw [List.range_succ_eq_map, List.map_cons, List.map_map]
        simp only [visitList, Nat.zero_add, e1, bind_ok, Bool.false_eq_true, if_false]
        rw [hmap, e2]
      · rw [List.range_succ_eq_map, List.map_cons, List.map_map]
        simp only [visitList, Nat.zero_add, e1', bind_ok, Bool.false_eq_true, if_false]
        rw [hmap, e2']
  obtain ⟨s, e1, e2, hs⟩ := key (D - 1) 0 .root (by omega) (by simp [SlotAt])
  have hrange : rangeFromTo 0 (D - 1) = (List.range (D - 1)).map (· + 0) := rfl
  refine ⟨s, ?_, ?_, hs⟩
  · unfold insertWalk
    rw [constLoop_eq _ _ _ _ (by omega) (by omega), hrange, e1]; rfl
  · unfold insertWalk
    rw [constLoop_eq _ _ _ _ (by omega) (by omega), hrange]
    simp only [fixT]
    rw [e2]; rfl

/-- The result with all headers repaired. -/
def fixOut {α : Type} (o : InsOut α) : InsOut α := { o with tree := fixT o.tree }

theorem getOrInsertImpl_fix {α : Type} {t : DT α} (H : TInv D (fixHeap t.heap) t.root loc K)
    (h9 : D ≤ 9) (h1 : 1 ≤ D) {k : Nat} (hk : k < 64 ^ D) {b : Nat}
    (hb : loc ((path 64 D k).take (D - 1)) = some b) (ins : Bool) (v : α) :
    getOrInsertImpl D (fixT t) k ins v = (getOrInsertImpl D t k ins v).map fixOut := by
  obtain ⟨s, e1, e2, -⟩ := insertWalk_fix H h9 h1 (validPath_path hk) (path_length 64 D k) hb
  have hlev : levelIndices 1 D k = .ok (path 64 D k) := levelIndices_ok h1 h9
  generalize path 64 D k = P at *
  unfold getOrInsertImpl
  simp only [hlev, bind_ok, e1, e2]
  have hr := read_fix ⟨t.heap, t.root, s⟩
  simp only [fixW] at hr
  rw [hr]
  cases (Walk.mk t.heap t.root s).read with
  | error e => rfl
  | ok q =>
    simp only [bind_ok]
    cases unwrapU P.getLast? with
    | error e => rfl
    | ok i =>
      simp only [bind_ok]
      rcases deref_fix t.heap q with ⟨e, d1, d2⟩ | ⟨n, n', d1, d2, d3, -⟩
      · rw [d1, d2]; rfl
      · rw [d1, d2]
        simp only [bind_ok, Node.contains, d3]
        cases getBitUnchecked n.mask i with
        | error e => rfl
        | ok c =>
          simp only [bind_ok]
          cases c with
          | true =>
            simp only [if_true, getChild_fix]
            cases getChild t.heap q i with
            | error e => rfl
            | ok cell =>
              simp only [bind_ok]
              cases cell.asIdx with
              | error e => rfl
              | ok x =>
                simp only [bind_ok, fixT]
                cases ins with
                | true =>
                  simp only [if_true]
                  cases getU t.data x with
                  | error e => rfl
                  | ok old =>
                    simp only [bind_ok]
                    cases unwrapU old with
                    | error e => rfl
                    | ok old =>
                      simp only [bind_ok]
                      cases setU t.data x (some v) with
                      | error e => rfl
                      | ok data => rfl
                | false =>
                  simp only [Bool.false_eq_true, if_false]
                  cases getU t.data x with
                  | error e => rfl
                  | ok old =>
                    simp only [bind_ok]
                    cases unwrapU old with
                    | error e => rfl
                    | ok old => rfl
          | false =>
            simp only [Bool.false_eq_true, if_false, nodeInsert_term_fix]
            have : (fixT t).data = t.data := rfl
            rw [this]
            cases nodeInsert t.heap .term q i (.idx (t.data.length % 2 ^ 32)) with
            | error e => rfl
            | ok y =>
              obtain ⟨h', d, a⟩ := y
              simp only [Except.map, bind_ok]
              have hw := write_fix ⟨h', t.root, s⟩ (.heap a)
              simp only [fixW] at hw
              rw [hw]
              cases (Walk.mk h' t.root s).write (.heap a) with
              | error e => rfl
              | ok w => rfl

/-! ## Removal -/

theorem branchLoop_fix (h : Heap) (P : List Nat) : ∀ (ns : List Nat) (p : Ptr),
    branchLoop (fixHeap h) P ns p = branchLoop h P ns p := by
  intro ns
  induction ns with
  | nil => intro p; rfl
  | cons n ns ih =>
    intro p
    unfold branchLoop
    congr 1; funext i
    rw [getChild_fix]
    congr 1; funext c
    congr 1; funext q
    rw [ih q]

theorem nodeRemove_inv {h h' : Heap} {p : Ptr} {i : Nat} (e : nodeRemove h .term p i = .ok h') :
    ∃ a n, p = .heap a ∧ h'.node a = some n ∧ n.kind = .term := by
  unfold nodeRemove at e
  cases p with
  | stat i => cases e
  | heap a =>
    simp only [derefMut] at e
    cases hn : h.node a with
    | none => rw [hn] at e; cases e
    | some n =>
      rw [hn] at e
      simp only [unwrapU, bind_ok, pure_eq_ok] at e
      by_cases hk : n.kind = .term
      · rw [if_neg (by simp [hk])] at e
        cases h1 : denseIndex n.mask i with
        | error x => rw [h1] at e; cases e
        | ok d =>
          cases h2 : setBitUnchecked false n.mask i with
          | error x => rw [h1, h2] at e; cases e
          | ok m =>
            rw [h1, h2] at e
            simp only [bind_ok] at e
            by_cases c1 : d + 1 ≤ n.len
            · simp only [if_pos c1, bind_ok] at e
              cases h3 : copyCells n.cells (d + 1) d (n.len - d - 1) with
              | error x => rw [h3] at e; cases e
              | ok cs =>
                rw [h3] at e
                simp only [bind_ok, Except.ok.injEq] at e
                subst e
                exact ⟨a, { n with mask := m.2, len := n.len - 1, cells := cs }, rfl, by simp [Heap.put], hk⟩
            · simp only [if_neg c1] at e; cases e
      · rw [if_pos (by simp [hk])] at e; cases e

theorem removeCell_fix {α : Type} {t : DT α} {P : List Nat} {branch : List Ptr} {q : Ptr} {i : Nat}
    (hne : ∀ h' n, nodeRemove (fixHeap t.heap) .term q i = .ok h' → deref h' q = .ok n → n.len ≠ 1) :
    removeCell D (fixT t) P branch q i = (removeCell D t P branch q i).map fixHeap := by
  unfold removeCell
  rw [show (fixT t).heap = fixHeap t.heap from rfl]
  rw [nodeRemove_term_fix] at hne ⊢
  cases hr : nodeRemove t.heap .term q i with
  | error e => rfl
  | ok h' =>
    rw [hr] at hne
    simp only [Except.map, bind_ok] at hne ⊢
    obtain ⟨a, n, rfl, hn, hk⟩ := nodeRemove_inv hr
    have h1 : deref h' (.heap a) = .ok n := by simp [deref, hn, unwrapU]
    have h2 : deref (fixHeap h') (.heap a) = .ok n := by
      simp [deref, fixHeap, hn, unwrapU, fixLen_term hk]
    have := hne _ n rfl h2
    simp only [h1, h2, bind_ok]
    rw [if_neg this, if_neg this]
    rfl

theorem getTerminalNode_fix (h : Heap) (r : Ptr) (P : List Nat) :
    getTerminalNode D (fixHeap h) r P = getTerminalNode D h r P := by
  unfold getTerminalNode
  rw [terminalLoop_fix]

theorem removeKey_fix {α : Type} (t : DT α) (k d : Nat) :
    removeKey D (fixT t) k d = (removeKey D t k d).map fixT := by
  unfold removeKey
  rw [show (fixT t).keys = t.keys from rfl, show (fixT t).heap = fixHeap t.heap from rfl,
    show (fixT t).root = t.root from rfl]
  cases unwrapU t.keys.getLast? with
  | error e => rfl
  | ok lk =>
    simp only [bind_ok]
    by_cases hc : lk ≠ k
    · rw [if_pos hc, if_pos hc]
      cases setU t.keys.dropLast d lk with
      | error e => rfl
      | ok ks =>
        simp only [bind_ok]
        cases levelIndices 1 D lk with
        | error e => rfl
        | ok P =>
          simp only [bind_ok, getTerminalNode_fix]
          cases getTerminalNode D t.heap t.root P with
          | error e => rfl
          | ok x =>
            obtain ⟨q, i⟩ := x
            simp only [bind_ok, setChild_fix]
            cases setChild t.heap .term q i (.idx (d % 2 ^ 32)) with
            | error e => rfl
            | ok h' => rfl
    · rw [if_neg hc, if_neg hc]; rfl

/-- The keys of one aligned block of 64 share the path of their terminal node. -/
theorem path_block {D k : Nat} (h1 : 1 ≤ D) (hk : k < 64 ^ D) :
    path 64 D k = path 64 (D - 1) (k / 64) ++ [k % 64] := by
  obtain ⟨D, rfl⟩ : ∃ E, D = E + 1 := ⟨D - 1, by omega⟩
  exact path_concat 64 (by decide) D k hk

section
variable {α : Type} {ex : List Nat → Prop} {t : DT α} {M : Nat → Option α}

/-- The terminal node of an occupied block exists. -/
theorem DS.block_live (S : DS ex D (fixT t) M loc K) (h1 : 1 ≤ D) {k k' : Nat} (hk : k < 64 ^ D)
    (hM : M k' ≠ none) (hb : k' / 64 = k / 64) :
    ∃ b, loc ((path 64 D k).take (D - 1)) = some b := by
  rw [S.den] at hM
  have hk' : k' < 64 ^ D := by
    apply Classical.byContradiction
    intro h
    rw [if_neg h] at hM; exact hM rfl
  rw [if_pos hk', path_block h1 hk'] at hM
  cases hK : K (path 64 (D - 1) (k' / 64) ++ [k' % 64]) with
  | none => rw [hK] at hM; exact absurd rfl hM
  | some d =>
    obtain ⟨b, hb'⟩ := S.tree.klive _ _ _ hK
    refine ⟨b, ?_⟩
    rw [path_block h1 hk, List.take_append_of_le_length (by simp),
      List.take_of_length_le (by simp), ← hb]
    exact hb'

theorem remove_fix (R : DRep ex D (fixT t) M) (h2 : 2 ≤ D) (h9 : D ≤ 9)
    {k : Nat} (hk : k < 64 ^ D)
    (hocc : M k = none ∨ ∃ k', k' ≠ k ∧ k' / 64 = k / 64 ∧ M k' ≠ none) :
    remove D (fixT t) k = (remove D t k).map (fun x => (fixT x.1, x.2)) := by
  obtain ⟨loc, K, S⟩ := R
  have h1 : 1 ≤ D := by omega
  have hden := S.den_path (validPath_path hk) (path_length 64 D k)
  have hupath := unpath_path 64 D k hk
  rw [hupath] at hden
  have hPv := validPath_path hk
  have hPl := path_length 64 D k
  have hlev : levelIndices 1 D k = .ok (path 64 D k) := levelIndices_ok h1 h9
  have hpb := path_block h1 hk
  have hpl : (path 64 (D - 1) (k / 64)).length + 1 = D := by simp; omega
  generalize hp : path 64 (D - 1) (k / 64) = p at *
  generalize hi' : k % 64 = i at *
  rw [hpb] at hden hupath hPv hPl hlev
  have hmap : (List.range (D - 1)).map (· + 0) = List.range (D - 1) := by simp
  have hlast : (p ++ [i]).getLast? = some i := by simp
  obtain ⟨hpv, hi⟩ := ValidPath.of_append hPv
  have hbl := branchLoop_fix t.heap (p ++ [i]) (List.range (D - 1)) t.root
  cases hK : K (p ++ [i]) with
  | none =>
    obtain ⟨qs, e1, e2, e3⟩ := S.tree.branch_any h9 hPv (D - 1) 0 t.root (by omega) (by omega)
      S.tree.wpos_root
    rw [hmap] at e1
    have hne : qs ≠ [] := by intro e; rw [e] at e2; simp at e2; omega
    have hW : WPos D loc (D - 1) (qs.getLast hne) := by
      rw [List.getLast_eq_getElem]
      have := e3 (qs.length - 1) qs[qs.length - 1] (List.getElem?_eq_getElem (by omega))
      rwa [show 0 + (qs.length - 1) + 1 = D - 1 by omega] at this
    obtain ⟨d, e4, e5⟩ := S.tree.wpos_idx h9 h1 hW hi
    obtain ⟨key, e6, e7⟩ := S.wrong_key h9 hPv hPl hK e5
    rw [hupath] at e7
    have e1' : branchLoop t.heap (p ++ [i]) (List.range (D - 1)) t.root = .ok qs := by
      rw [← hbl]; exact e1
    have e4' : getChild t.heap (qs.getLast hne) i = .ok (.idx d) := by
      rw [← getChild_fix]; exact e4
    have e6' : t.keys[d]? = some key := e6
    unfold remove getBranch
    rw [indexFrom_ok h9, if_pos hk]
    simp only [fixT] at e1 e4 ⊢
    simp only [bind_ok, hlev, e1, e1', List.getLast?_eq_some_getLast hne, unwrapU, hlast, e4, e4',
        Cell.asIdx, getU_some e6', if_neg e7, pure_eq_ok]
    rfl
  | some d =>
    obtain ⟨g1, v, g2⟩ := S.data.value hK
    have hM : M k = some v := by rw [hden, hK]; simp [g2]
    obtain ⟨a, ha⟩ := S.tree.klive _ _ _ hK
    obtain ⟨r, hr, hroot⟩ := S.tree.root
    have htk : ∀ k, k ≤ p.length → (p ++ [i]).take k = p.take k :=
      fun k hk => List.take_append_of_le_length hk
    obtain ⟨qs, e1, e2, e3⟩ := S.tree.branch_live (P := p ++ [i]) (D - 1) 0 r (by simp; omega)
      (by simpa using hr) (fun k hk => by
        rw [htk k (by omega)]; exact S.tree.take_live _ rfl ha k)
    rw [hmap] at e1
    have hlastq : qs.getLast? = some (.heap a) := by
      obtain ⟨b, q1, q2⟩ := e3 (D - 1 - 1) (by omega)
      rw [show 0 + (D - 1 - 1) + 1 = p.length by omega, htk _ (Nat.le_refl _),
        List.take_length, ha] at q1
      cases q1
      rw [List.getLast?_eq_getElem?, e2]; exact q2
    have hroot' : t.root = .heap r := hroot
    rw [hroot'] at hbl
    have e1f : branchLoop (fixHeap t.heap) (p ++ [i]) (List.range (D - 1)) (.heap r) = .ok qs := e1
    have e1' : branchLoop t.heap (p ++ [i]) (List.range (D - 1)) (.heap r) = .ok qs := by
      rw [← hbl]; exact e1
    have e4 : getChild (fixHeap t.heap) (.heap a) i = .ok (.idx d) := S.tree.idx ha hK
    have e4' : getChild t.heap (.heap a) i = .ok (.idx d) := by rw [← getChild_fix]; exact e4
    have hkey := (S.data.keyOf _ _ hK).2
    rw [hupath] at hkey
    have hkey' : t.keys[d]? = some k := hkey
    -- another cell of the terminal node
    obtain ⟨j, hj, hji, dj, hKj⟩ : ∃ j, j < 64 ∧ j ≠ i ∧ ∃ dj, K (p ++ [j]) = some dj := by
      rcases hocc with h0 | ⟨k', q1, q2, q3⟩
      · rw [hM] at h0; cases h0
      · rw [S.den] at q3
        have hk' : k' < 64 ^ D := by
          apply Classical.byContradiction
          intro h
          rw [if_neg h] at q3; exact q3 rfl
        rw [if_pos hk', path_block h1 hk', q2, hp] at q3
        refine ⟨k' % 64, Nat.mod_lt _ (by decide), ?_, ?_⟩
        · intro e
          have := Nat.div_add_mod k' 64
          have := Nat.div_add_mod k 64
          omega
        · cases hK' : K (p ++ [k' % 64]) with
          | none => rw [hK'] at q3; exact absurd rfl q3
          | some dj => exact ⟨dj, rfl⟩
    have hkind : kindOf D p = .term := by unfold kindOf; rw [if_neg (by omega)]
    obtain ⟨h', f1, H1⟩ := S.tree.rep.remove ha hi (v := .idx d) (by rw [cellsOf_term hpl, hK]; rfl)
    rw [hkind] at f1
    obtain ⟨nd, f2, -, -, -, hrep⟩ := H1.deref ha
    have hne : nd.len ≠ 1 := by
      intro e
      have := (hrep.len_one).1 e j hj
      rw [upd_same, upd_ne _ _ hji, cellsOf_term hpl, hKj] at this
      cases this
    have hcell : removeCell D (fixT t) (p ++ [i]) qs (.heap a) i =
        (removeCell D t (p ++ [i]) qs (.heap a) i).map fixHeap := by
      apply removeCell_fix
      intro h'' n q1 q2
      rw [show nodeRemove (fixHeap t.heap) .term (.heap a) i = .ok h' from f1] at q1
      cases q1
      rw [f2] at q2
      cases q2
      exact hne
    unfold remove getBranch
    rw [indexFrom_ok h9, if_pos hk]
    rw [show (fixT t).heap = fixHeap t.heap from rfl, show (fixT t).root = t.root from rfl,
      show (fixT t).keys = t.keys from rfl]
    rw [hroot']
    simp only [bind_ok, hlev, e1f, e1', hlastq, unwrapU, hlast, e4, e4',
        Cell.asIdx, getU_some hkey', if_true]
    rw [hcell]
    cases removeCell D t (p ++ [i]) qs (.heap a) i with
    | error e => rfl
    | ok h'' =>
      simp only [Except.map, bind_ok]
      have hrk := removeKey_fix (D := D) { t with heap := h'' } k d
      simp only [fixT, hroot'] at hrk ⊢
      rw [hrk]
      cases removeKey D ⟨h'', .heap r, t.data, t.keys⟩ k d with
      | error e => rfl
      | ok t' =>
        simp only [Except.map, bind_ok]
        rw [show (fixT t').data = t'.data from rfl]
        cases swapRemove t'.data d with
        | error e => rfl
        | ok x => rfl

/-! ## Histories -/

/-- Key `k`'s aligned block of 64 keys holds an element. -/
def Occupied (M : Nat → Option α) (b : Nat) : Prop := ∃ k, k / 64 = b ∧ M k ≠ none

/-- The operation leaves the set of occupied blocks unchanged. -/
def Op.KeepsBlocks (M : Nat → Option α) (op : Op α) : Prop :=
  ∀ b, Occupied (op.spec M).1 b ↔ Occupied M b

/-- Every operation of the history leaves the set of occupied blocks unchanged. -/
def KeepsBlocks (M : Nat → Option α) : List (Op α) → Prop
  | [] => True
  | op :: ops => op.KeepsBlocks M ∧ KeepsBlocks (op.spec M).1 ops

theorem get_fix (t : DT α) (k : Nat) : (impl α D).get (fixT t) k = (impl α D).get t k := by
  unfold Impl.get
  simp only [impl, treeData_fix]

theorem step_fix (R : DRep ex D (fixT t) M) {op : Op α} (h2 : op.OkDepth D) (h9 : D ≤ 9)
    (hr : op.InRange (64 ^ D)) (hb : op.KeepsBlocks M) :
    step D (fixT t) op = (step D t op).map (fun x => (fixT x.1, x.2)) := by
  have hput : ∀ {k : Nat} {v : α}, (∀ b, Occupied (put M k (some v)) b ↔ Occupied M b) →
      ∃ k', k' / 64 = k / 64 ∧ M k' ≠ none := by
    intro k v h
    exact (h (k / 64)).1 ⟨k, rfl, by simp [put]⟩
  have hw : ∀ (u : DT α) (i : Nat) (g : α → α),
      writeRef (fixT u) i g = (writeRef u i g).map (fun x => (fixT x.1, x.2)) := by
    intro u i g
    unfold writeRef
    rw [show (fixT u).data = u.data from rfl]
    cases getU u.data i with
    | error e => rfl
    | ok old =>
      simp only [bind_ok]
      cases unwrapU old with
      | error e => rfl
      | ok old =>
        simp only [bind_ok]
        cases setU u.data i (some (g old)) with
        | error e => rfl
        | ok data => rfl
  cases op with
  | insert k v =>
    have hk : k < 64 ^ D := hr
    obtain ⟨k', q1, q2⟩ := hput hb
    obtain ⟨loc, K, S⟩ := R
    obtain ⟨b, hb'⟩ := S.block_live h2 hk q2 q1
    simp only [step, Dense.insert]
    rw [indexFrom_ok h9, if_pos hk]
    simp only [bind_ok, getOrInsertImpl_fix S.tree h9 h2 hk hb']
    cases getOrInsertImpl D t k true v with
    | error e => rfl
    | ok o => rfl
  | getOrInsert k dflt g =>
    have hk : k < 64 ^ D := hr
    obtain ⟨k', q1, q2⟩ := hput hb
    obtain ⟨loc, K, S⟩ := R
    obtain ⟨b, hb'⟩ := S.block_live h2 hk q2 q1
    simp only [step, getOrInsert]
    rw [indexFrom_ok h9, if_pos hk]
    simp only [bind_ok, getOrInsertImpl_fix S.tree h9 h2 hk hb']
    cases getOrInsertImpl D t k false dflt with
    | error e => rfl
    | ok o =>
      simp only [Except.map, bind_ok, fixOut, hw]
      cases writeRef o.tree o.dataIndex g with
      | error e => rfl
      | ok x => rfl
  | remove k =>
    have hk : k < 64 ^ D := hr
    have hocc : M k = none ∨ ∃ k', k' ≠ k ∧ k' / 64 = k / 64 ∧ M k' ≠ none := by
      cases hM : M k with
      | none => exact .inl rfl
      | some v =>
        obtain ⟨k', q1, q2⟩ := (hb (k / 64)).2 ⟨k, rfl, by rw [hM]; simp⟩
        refine .inr ⟨k', ?_, q1, ?_⟩
        · intro e
          apply q2
          simp [Op.spec, put, e]
        · intro e
          apply q2
          simp [Op.spec, put, e]
    simp only [step, remove_fix R h2 h9 hk hocc]
    cases remove D t k with
    | error e => rfl
    | ok x => rfl
  | get k =>
    simp only [step, get_fix]
    cases (impl α D).get t k with
    | error e => rfl
    | ok x => rfl
  | mutValues g =>
    simp only [step, mutValues, keyValues_fix]
    cases keyValues t with
    | error e => rfl
    | ok x => rfl

theorem map_eq_ok {ε β γ : Type} {f : β → γ} {x : Except ε β} {y : γ} (h : x.map f = .ok y) :
    ∃ z, x = .ok z ∧ f z = y := by
  cases x with
  | error e => cases h
  | ok z => simp only [Except.map, Except.ok.injEq] at h; exact ⟨z, rfl, h⟩

/-- **Refinement of block-preserving histories** from a tree whose branch headers have a wrong
length. -/
theorem run_fix (h9 : D ≤ 9) : ∀ (ops : List (Op α)) (t : DT α) (M : Nat → Option α),
    DRep ex D (fixT t) M → (∀ op ∈ ops, op.OkDepth D) → (∀ op ∈ ops, op.InRange (64 ^ D)) →
    Bounded (64 ^ D) (2 ^ 32) M ops → KeepsBlocks M ops →
    ∃ t', run D t ops = .ok (t', (specRun M ops).2) ∧ DRep ex D (fixT t') (specRun M ops).1 := by
  intro ops
  induction ops with
  | nil => intro t M R _ _ _ _; exact ⟨t, rfl, R⟩
  | cons op ops ih =>
    intro t M R h2 hr hb hkb
    have hb' : card (64 ^ D) (op.spec M).1 < 2 ^ 32 := by
      have := hb.2
      cases ops with
      | nil => exact this
      | cons o os => exact this.1
    obtain ⟨t1, e1, R1⟩ := step_spec R (h2 op (by simp)) h9 (hr op (by simp)) hb'
    rw [step_fix R (h2 op (by simp)) h9 (hr op (by simp)) hkb.1] at e1
    obtain ⟨⟨u, o⟩, e2, e3⟩ := map_eq_ok e1
    simp only [Prod.mk.injEq] at e3
    rw [← e3.1] at R1
    obtain ⟨t2, e4, R2⟩ := ih u _ R1 (fun o ho => h2 o (by simp [ho]))
      (fun o ho => hr o (by simp [ho])) hb.2 hkb.2
    refine ⟨t2, ?_, R2⟩
    simp only [run, e2, bind_ok, e4, pure_eq_ok]
    rw [e3.2]
    rfl

end

end Hibit.Dense
