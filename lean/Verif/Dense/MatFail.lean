import Verif.Dense.InPlace
import Verif.IndexLemmas
/-!
# Materialize without exact hierarchy: what later insertions destroy

Every branch node made by `from_parts` is full (no spare cell) although its header says that one cell
is free. The next child inserted into such a node therefore overwrites the sentinel.
-/
namespace Hibit.Dense
open Hibit

/-- Every branch node has exactly one cell more than its header length. -/
def TightB (h : Heap) : Prop :=
  ∀ a n, h.node a = some n → n.kind = .branch → n.cells.length = n.len + 1 ∧ n.cap = n.len + 1

theorem TightB.put {h : Heap} (H : TightB h) {a : Nat} {n : Node} (hk : n.kind = .term) :
    TightB (h.put a n) := by
  intro b m hb hm
  simp only [Heap.put] at hb
  by_cases e : b = a
  · subst e; simp at hb; subst hb; rw [hk] at hm; cases hm
  · rw [upd_ne _ _ e] at hb; exact H b m hb hm

theorem TightB.alloc {h : Heap} (H : TightB h) {n : Node}
    (hn : n.kind = .branch → n.cells.length = n.len + 1 ∧ n.cap = n.len + 1) :
    TightB (h.alloc n).1 := by
  intro b m hb hm
  simp only [Heap.alloc] at hb
  by_cases e : b = h.next
  · subst e; simp at hb; subst hb; exact hn hm
  · rw [upd_ne _ _ e] at hb; exact H b m hb hm

theorem rawPush_tight {h h' : Heap} (H : TightB h) {a : Nat} {v : Cell}
    (e : rawPush h .term a v = .ok h') : TightB h' := by
  unfold rawPush at e
  obtain ⟨n, -, e⟩ := bind_inv e
  split at e
  · cases e
  · rename_i hk
    obtain ⟨cs, -, e⟩ := bind_inv e
    simp only at e
    split at e
    · cases e
      exact H.put (by simpa using hk)
    · cases e

theorem rawFinalize_tight {h h' : Heap} (H : TightB h) {a : Nat} {v : Cell}
    (e : rawFinalize h .term a v = .ok h') : TightB h' := by
  unfold rawFinalize at e
  obtain ⟨n, -, e⟩ := bind_inv e
  split at e
  · cases e
  · rename_i hk
    obtain ⟨cs, -, e⟩ := bind_inv e
    simp only at e
    split at e
    · simp only [bind_ok] at e
      split at e
      · cases e
        exact H.put (by simpa using hk)
      · cases e
    · cases e

theorem foldlM_keeps {σ : Type} {body : σ → Nat → R σ} {P : σ → Prop}
    (hb : ∀ st i st', P st → body st i = .ok st' → P st') : ∀ (l : List Nat) (st st' : σ), P st →
    l.foldlM body st = .ok st' → P st' := by
  intro l
  induction l with
  | nil => intro st st' h e; cases e; exact h
  | cons a l ih =>
    intro st st' h e
    rw [List.foldlM_cons] at e
    obtain ⟨s1, e1, e2⟩ := bind_inv e
    exact ih _ _ (hb _ _ _ h e1) e2

section
variable {S C α : Type} {I : Impl S C α} {s : S}

theorem makeTerminalNode_tight {st st' : MSt C α} (H : TightB st.heap) {mask : Word} {cap acc a : Nat}
    (e : makeTerminalNode I s st mask cap acc = .ok (st', a)) : TightB st'.heap := by
  unfold makeTerminalNode at e
  simp only at e
  obtain ⟨v, e1, e⟩ := bind_inv e
  obtain ⟨h, e2, e⟩ := bind_inv e
  cases e
  rw [traverseM_eq] at e1
  refine rawFinalize_tight ?_ e2
  refine foldlM_keeps (P := fun st : MSt C α => TightB st.heap) ?_ _ _ _ ?_ e1
  · intro v i v' hv ev
    unfold terminalBody at ev
    obtain ⟨d, -, ev⟩ := bind_inv ev
    obtain ⟨k, -, ev⟩ := bind_inv ev
    obtain ⟨h, e3, ev⟩ := bind_inv ev
    cases ev
    exact rawPush_tight (h := v.heap) hv e3
  · exact H.alloc (fun h => by cases h)

theorem fromSparse_tight : ∀ (left : Nat) (st st' : MSt C α) (index acc : Nat) (o : Option Nat),
    TightB st.heap → fromSparse I s left st index acc = .ok (st', o) → TightB st'.heap := by
  intro left
  induction left with
  | zero =>
    intro st st' index acc o H e
    unfold fromSparse at e
    obtain ⟨⟨m, c⟩, -, e⟩ := bind_inv e
    obtain ⟨mask, -, e⟩ := bind_inv e
    obtain ⟨cap, -, e⟩ := bind_inv e
    obtain ⟨⟨st1, a⟩, e1, e⟩ := bind_inv e
    cases e
    exact makeTerminalNode_tight (st := { st with cur := c }) H e1
  | succ left ih =>
    intro st st' index acc o H e
    unfold fromSparse at e
    obtain ⟨⟨m, c⟩, -, e⟩ := bind_inv e
    obtain ⟨mask, -, e⟩ := bind_inv e
    obtain ⟨v, e1, e⟩ := bind_inv e
    rw [traverseM_eq] at e1
    have hv : TightB v.st.heap ∧ v.childs.length ≤ 64 := by
      refine foldlM_keeps (P := fun v : SSt C α => TightB v.st.heap ∧ v.childs.length ≤ 64)
        ?_ _ _ _ ⟨H, by simp⟩ e1
      intro v i v' hv ev
      unfold sparseBody at ev
      obtain ⟨d, -, ev⟩ := bind_inv ev
      obtain ⟨k, -, ev⟩ := bind_inv ev
      obtain ⟨⟨st1, ch⟩, e3, ev⟩ := bind_inv ev
      have h1 := ih _ _ _ _ _ hv.1 e3
      cases ch with
      | none => cases ev; exact ⟨h1, hv.2⟩
      | some x =>
        simp only at ev
        obtain ⟨⟨_, nm⟩, -, ev⟩ := bind_inv ev
        simp only at ev
        split at ev
        · cases ev
          refine ⟨h1, ?_⟩
          simp only [List.length_append, List.length_singleton]
          omega
        · cases ev
    split at e
    · cases e; exact hv.1
    · obtain ⟨q, -, e⟩ := bind_inv e
      cases e
      refine TightB.alloc hv.1 (fun _ => ?_)
      simp only [List.length_append, List.length_singleton]
      omega

/-- The branch nodes of a tree materialized from a source without exact hierarchy are full. -/
theorem materialize_tight {t : DT α} (hex : I.exact = false) (e : materialize I s = .ok t) :
    TightB t.heap := by
  unfold materialize fromRoot at e
  obtain ⟨c, -, e⟩ := bind_inv e
  rw [if_neg (by simp [hex])] at e
  obtain ⟨⟨st, a⟩, e1, e⟩ := bind_inv e
  obtain ⟨⟨st1, o⟩, e2, e1⟩ := bind_inv e1
  obtain ⟨a', -, e1⟩ := bind_inv e1
  cases e1
  cases e
  exact fromSparse_tight (I := I) (s := s) _ _ _ _ _ _ (fun a n h => by cases h) e2

end

/-! ## Inserting into a node that believes it has room -/

theorem countP_range_mono (p : Nat → Bool) {i j : Nat} (h : i ≤ j) :
    (List.range i).countP p ≤ (List.range j).countP p := by
  obtain ⟨k, rfl⟩ := Nat.exists_eq_add_of_le h
  rw [List.range_add, List.countP_append]
  omega

theorem copyCells_len {cs cs' : List Cell} {a b c : Nat} (h : copyCells cs a b c = .ok cs') :
    cs'.length = cs.length := by
  unfold copyCells at h
  split at h
  · cases h
    simp only [List.length_append, List.length_take, List.length_drop]
    omega
  · cases h

theorem nodeInsert_room {h : Heap} {a i : Nat} {n : Node} {k : Kind} (hn : h.node a = some n)
    (hk : n.kind = k) (hcells : n.cells.length = n.cap) (hlt : n.len < n.cap) (hcap : n.cap ≤ 128)
    (hi : i < 64) (hr : (List.range i).countP (fun j => n.mask.getLsbD j) ≤ n.len) (v : Cell) :
    ∃ n' d, nodeInsert h k (.heap a) i v = .ok (h.put a n', d, a) ∧ n'.kind = k ∧
      n'.cells[d]? = some v ∧ n'.cells.length = n.cap ∧
      (∀ j, j < 64 → n'.mask.getLsbD j = if j = i then true else n.mask.getLsbD j) := by
  obtain ⟨m', b1, b2⟩ := setBitUnchecked_spec true n.mask hi
  have hd := denseIndex_word m' hi
  have hc : (List.range i).countP (fun j => m'.getLsbD j) =
      (List.range i).countP (fun j => n.mask.getLsbD j) := by
    apply List.countP_congr
    intro j hj
    simp only [List.mem_range] at hj
    rw [b2 j (by omega), if_neg (by omega)]
  rw [hc] at hd
  generalize (List.range i).countP (fun j => n.mask.getLsbD j) = r at *
  obtain ⟨cs, hcs⟩ : ∃ cs, copyCells n.cells r (r + 1) (n.len - r) = .ok cs := by
    unfold copyCells
    rw [if_pos (by omega)]
    exact ⟨_, rfl⟩
  have hl := copyCells_len hcs
  refine ⟨{ n with mask := m', len := n.len + 1, cells := cs.set r v }, r, ?_, hk, ?_, ?_, b2⟩
  · unfold nodeInsert nodeGrow derefMut
    simp only [hn, unwrapU, bind_ok, pure_eq_ok]
    rw [if_neg (by simp [hk]), if_neg (by omega)]
    simp only [bind_ok, b1, hd, if_pos hr, hcs]
    rw [setU_ok _ (by omega)]
    simp only [bind_ok]
    rw [if_pos (by omega)]
  · rw [List.getElem?_set_self (by omega)]
  · simp; omega

/-- Writing back the pointer that is already there. -/
theorem write_same {w : Walk} {p : Ptr} (hr : w.read = .ok p)
    (hk : ∀ a d n, w.slot = .cell a d → w.heap.node a = some n → n.kind = .branch) :
    w.write p = .ok w := by
  obtain ⟨h, root, slot⟩ := w
  cases slot with
  | root => simp only [Walk.read, Except.ok.injEq] at hr; subst hr; rfl
  | cell a d =>
    simp only [Walk.read] at hr
    obtain ⟨n, e1, hr⟩ := bind_inv hr
    have hn := unwrapU_inv e1
    obtain ⟨c, e2, hr⟩ := bind_inv hr
    have hc := getU_inv e2
    have hcp : c = .ptr p := by
      cases c with
      | ptr q => simp only [Cell.asPtr, Except.ok.injEq] at hr; rw [hr]
      | idx _ => cases hr
      | uninit => cases hr
    subst hcp
    have hkk := hk a d n rfl hn
    obtain ⟨hlt, hg⟩ := List.getElem?_eq_some_iff.1 hc
    simp only [Walk.write, hn, unwrapU, bind_ok]
    rw [if_neg (by simp [hkk]), setU_ok _ hlt]
    simp only [bind_ok, pure_eq_ok]
    have hs : n.cells.set d (.ptr p) = n.cells := by rw [← hg]; exact List.set_getElem_self hlt
    rw [hs]
    congr 2
    unfold Heap.put
    congr 1
    funext x
    by_cases e : x = a
    · subst e; rw [upd_same, hn]
    · rw [upd_ne _ _ e]

/-- The state of the descent below a node just created: the slot holds the pointer to a new, empty
node; nothing below address `base` differs from `g`. -/
def FreshAt (base : Nat) (g : Nat → Option Node) (root : Ptr) (k : Kind) (w : Walk) : Prop :=
  w.root = root ∧ ∃ b e nb f s, w.slot = .cell b e ∧ w.heap.node b = some nb ∧ nb.kind = .branch ∧
    nb.cells[e]? = some (.ptr (.heap f)) ∧
    w.heap.node f = some ⟨k, 0, defaultCap, 1, [s, .uninit]⟩ ∧ b ≠ f ∧ b < w.heap.next ∧ base ≤ f ∧
    f < w.heap.next ∧ ∀ x, x < base → w.heap.node x = g x

theorem countP_zero (i : Nat) : (List.range i).countP (fun j => (0 : Word).getLsbD j) = 0 := by
  rw [List.countP_eq_zero]
  intro j _
  simp

/-- The insertion of a child into the new node. -/
theorem FreshAt.insert {base : Nat} {g : Nat → Option Node} {root : Ptr} {k : Kind} {w : Walk}
    (F : FreshAt base g root k w) {i : Nat} (hi : i < 64) (v : Cell) (h1 : Heap)
    (hh : ∀ x, x < w.heap.next → h1.node x = w.heap.node x) :
    ∃ b f d n n' h2 n2, w.slot = .cell b d ∧ w.read = .ok (.heap f) ∧
      deref w.heap (.heap f) = .ok n ∧ n.contains i = .ok false ∧ f < w.heap.next ∧
      nodeInsert h1 k (.heap f) i v = .ok (h2, n', f) ∧ base ≤ f ∧ h2.next = h1.next ∧
      (Walk.mk h2 root w.slot).write (.heap f) = .ok ⟨h2, root, w.slot⟩ ∧
      h2.node f = some n2 ∧ n2.kind = k ∧ n2.cells[n']? = some v ∧
      (∀ x, x ≠ f → h2.node x = h1.node x) := by
  obtain ⟨hroot, b, e, nb, f, s, g1, g2, g3, g4, g5, g6, g7, g8, g9, g10⟩ := F
  have hf1 : h1.node f = some ⟨k, 0, defaultCap, 1, [s, .uninit]⟩ := by rw [hh f g9, g5]
  obtain ⟨n2, d, e1, e2, e3, -, -⟩ := nodeInsert_room (i := i) hf1 rfl rfl (by simp [defaultCap])
    (by simp [defaultCap]) hi (by rw [countP_zero]; omega) v
  have hfo : ∀ x, x ≠ f → (h1.put f n2).node x = h1.node x := fun x hx => by
    simp only [Heap.put]; rw [upd_ne _ _ hx]
  have hb2 : (h1.put f n2).node b = some nb := by rw [hfo b g6, hh b g7, g2]
  refine ⟨b, f, e, ⟨k, 0, defaultCap, 1, [s, .uninit]⟩, d, h1.put f n2, n2, g1, ?_, ?_, ?_, g9, e1, g8, rfl, ?_, ?_, e2, e3, hfo⟩
  · simp only [Walk.read, g1, g2, unwrapU, bind_ok, getU_some g4, Cell.asPtr]
  · simp only [deref, g5, unwrapU]
  · unfold Node.contains
    rw [getBitUnchecked_eq _ hi]; simp
  · refine write_same ?_ ?_
    · rw [g1]
      simp only [Walk.read, hb2, unwrapU, bind_ok, getU_some g4, Cell.asPtr]
    · rw [g1]
      intro a d n he hn
      cases he
      simp only at hn
      rw [hb2] at hn; cases hn; exact g3
  · simp [Heap.put]

/-- The child node a step of the descent creates. -/
theorem newChild {h : Heap} {D N : Nat} (h9 : D ≤ 9) (hN : N + 2 ≤ D) :
    ∃ s, (if N = D - 2 then nodeNew h .term defaultCap (.idx 0)
        else do
          let e ← emptyNode (N + 2) D
          nodeNew h .branch defaultCap (.ptr e)) =
      .ok (h.alloc ⟨if N + 2 = D then .term else .branch, 0, defaultCap, 1, [s, .uninit]⟩) := by
  by_cases hND : N = D - 2
  · rw [if_pos hND]
    exact ⟨.idx 0, by rw [if_pos (by omega)]; rfl⟩
  · rw [if_neg hND, if_neg (by omega)]
    unfold emptyNode
    rw [if_pos (by omega)]
    exact ⟨_, rfl⟩

/-- One level of the descent below a new node. -/
theorem FreshAt.step {base : Nat} {g : Nat → Option Node} {root : Ptr} {w : Walk} {D N i : Nat}
    {P : List Nat} (F : FreshAt base g root .branch w) (h9 : D ≤ 9) (hN : N + 2 ≤ D)
    (hi : P[N]? = some i) (hi64 : i < 64) :
    ∃ w', insertStep D P w N = .ok (w', false) ∧
      FreshAt base g root (if N + 2 = D then .term else .branch) w' := by
  obtain ⟨s, hnew⟩ := newChild (h := w.heap) h9 hN
  generalize hkind : (if N + 2 = D then Kind.term else .branch) = k at *
  obtain ⟨b, f, d, n, d', h2, n2, e1, e2, e3, e4, e5, e6, e7, e8, e9, e10, e11, e12, e13⟩ :=
    F.insert hi64 (.ptr (.heap w.heap.next)) (w.heap.alloc ⟨k, 0, defaultCap, 1, [s, .uninit]⟩).1
    (fun x hx => by simp only [Heap.alloc]; rw [upd_ne _ _ (by omega)])
  obtain ⟨hroot, b', e', nb, f', s', g1, g2, g3, g4, g5, g6, g7, g8, g9, g10⟩ := F
  refine ⟨⟨h2, root, .cell f d'⟩, ?_, rfl, f, d', n2, w.heap.next, s, rfl, e10, e11, e12, ?_, ?_, ?_,
    ?_, ?_, ?_⟩
  · unfold insertStep
    simp only [getP_some hi, bind_ok, e2, e3, e4, Bool.false_eq_true, if_false]
    have hw : ({ w with heap := h2 } : Walk) = ⟨h2, root, w.slot⟩ := by rw [← hroot]
    by_cases hND : N = D - 2
    · rw [if_pos hND] at hnew ⊢
      simp only [hnew, bind_ok]
      simp only [Heap.alloc] at e6 ⊢
      simp only [e6, bind_ok]
      rw [hw, e9]; rfl
    · rw [if_neg hND] at hnew ⊢
      cases he : emptyNode (N + 2) D with
      | error x => rw [he] at hnew; cases hnew
      | ok x =>
        rw [he] at hnew
        simp only [bind_ok] at hnew ⊢
        simp only [hnew, bind_ok]
        simp only [Heap.alloc] at e6 ⊢
        simp only [e6, bind_ok]
        rw [hw, e9]; rfl
  · show h2.node w.heap.next = _
    rw [e13 _ (by omega)]; simp [Heap.alloc]
  · omega
  · show f < h2.next
    rw [e8]; simp only [Heap.alloc]; omega
  · omega
  · show w.heap.next < h2.next
    rw [e8]; simp only [Heap.alloc]; omega
  · intro x hx
    show h2.node x = _
    rw [e13 _ (by omega)]
    simp only [Heap.alloc]
    rw [upd_ne _ _ (by omega), g10 x hx]

/-- The levels below a new node, down to the terminal one. -/
theorem FreshAt.steps {base : Nat} {g : Nat → Option Node} {root : Ptr} {D : Nat}
    {P : List Nat} (hP : ValidPath 64 P) (hPD : P.length = D) (h9 : D ≤ 9) :
    ∀ (n m : Nat) (w : Walk), m + n + 1 = D →
      FreshAt base g root (if m + 1 = D then .term else .branch) w →
      ∃ w', visitList (insertStep D P) ((List.range n).map (· + m)) w = .ok (w', false) ∧
        FreshAt base g root .term w' := by
  intro n
  induction n with
  | zero =>
    intro m w hm F
    by_cases h : m + 1 = D
    · rw [if_pos h] at F; exact ⟨w, rfl, F⟩
    · omega
  | succ n ih =>
    intro m w hm F
    rw [if_neg (by omega)] at F
    have hlt : m < P.length := by omega
    obtain ⟨w1, e1, F1⟩ := F.step h9 (N := m) (D := D) (by omega) (List.getElem?_eq_getElem hlt)
      (hP _ (List.getElem_mem hlt))
    obtain ⟨w2, e2, F2⟩ := ih (m + 1) w1 (by omega) F1
    refine ⟨w2, ?_, F2⟩
    rw [List.range_succ_eq_map, List.map_cons, List.map_map]
    simp only [visitList, Nat.zero_add, e1, bind_ok, Bool.false_eq_true, if_false]
    have : (List.range n).map ((· + m) ∘ Nat.succ) = (List.range n).map (· + (m + 1)) := by
      apply List.map_congr_left; intro x _; simp; omega
    rw [this, e2]

theorem terminalLoop_append {h : Heap} {P : List Nat} : ∀ (xs ys : List Nat) (p : Ptr),
    terminalLoop h P (xs ++ ys) p = (do let q ← terminalLoop h P xs p; terminalLoop h P ys q) := by
  intro xs
  induction xs with
  | nil => intro ys p; rfl
  | cons x xs ih =>
    intro ys p
    rw [List.cons_append, terminalLoop, terminalLoop]
    simp only [bind_assoc_R]
    congr 1; funext i
    congr 1; funext c
    congr 1; funext q
    exact ih ys q

variable {D : Nat} {loc K : List Nat → Option Nat}

/-- The descent through existing nodes, in a heap that agrees with the tree's except at `x`. -/
theorem TInv.descend {h h' : Heap} {root : Ptr} (H : TInv D h root loc K) {x : Nat}
    {P : List Nat} (hv : ValidPath 64 P) (hPD : P.length = D)
    (hh : ∀ q a, loc q = some a → a ≠ x → h'.node a = h.node a) :
    ∀ (n : Nat) (a : Nat), n < D → loc (P.take n) = some a →
      (∀ m b, m < n → loc (P.take m) = some b → b ≠ x) →
      terminalLoop h' P (List.range n) root = .ok (.heap a) := by
  intro n
  induction n with
  | zero =>
    intro a _ ha _
    obtain ⟨r, h1, h2⟩ := H.root
    simp only [List.take_zero] at ha
    rw [h1] at ha; cases ha
    rw [h2]; rfl
  | succ n ih =>
    intro a hn ha hx
    have hlt : n < P.length := by omega
    have htake := take_succ_of_getElem? (List.getElem?_eq_getElem hlt)
    rw [htake] at ha
    obtain ⟨b, hb⟩ := H.closed _ _ _ ha
    have e1 := ih b (by omega) hb (fun m c hm hc => hx m c (by omega) hc)
    have hch := H.child hb ha
    have hb' := hh _ _ hb (hx n b (by omega) hb)
    have hch' : getChild h' (.heap b) P[n] = .ok (.ptr (.heap a)) := by
      rw [← hch]
      unfold getChild
      simp only [deref, hb']
    rw [List.range_succ, terminalLoop_append, e1]
    simp only [bind_ok]
    unfold terminalLoop
    rw [getU_some (List.getElem?_eq_getElem hlt)]
    simp only [bind_ok, hch', Cell.asPtr]
    rfl

/-- The steps of the descent through existing nodes. -/
theorem insertSteps_fix {h : Heap} {root : Ptr} (H : TInv D (fixHeap h) root loc K)
    {P : List Nat} (hP : ValidPath 64 P) (hPD : P.length = D) : ∀ (n a : Nat), n + 1 ≤ D →
    loc (P.take n) = some a →
    ∃ s, visitList (insertStep D P) (List.range n) ⟨h, root, .root⟩ = .ok (⟨h, root, s⟩, false) ∧
      SlotAt loc (cellsOf D loc K) s (P.take n) := by
  intro n
  induction n with
  | zero => intro a _ _; exact ⟨.root, rfl, by simp [SlotAt]⟩
  | succ n ih =>
    intro a hn ha
    have hlt : n < P.length := by omega
    have htake := take_succ_of_getElem? (List.getElem?_eq_getElem hlt)
    obtain ⟨b, hb⟩ := H.closed _ _ _ (htake ▸ ha)
    obtain ⟨s, e1, hs⟩ := ih b (by omega) hb
    obtain ⟨s', e2, -, hs'⟩ := insertStep_fix (w := ⟨h, root, s⟩) H hP (N := n) (by omega) hPD hb ha hs
    refine ⟨s', ?_, hs'⟩
    rw [List.range_succ, visitList_append, e1]
    simp only [bind_ok, Bool.false_eq_true, if_false, visitList, e2, pure_eq_ok]

/-- The step of the descent that gives a full branch node a new child. -/
theorem insertStep_lossy {h : Heap} {root : Ptr} {s : Slot} (H : TInv D (fixHeap h) root loc K)
    (hT : TightB h) (h9 : D ≤ 9) {P : List Nat} (hP : ValidPath 64 P) (hPD : P.length = D)
    {n : Nat} (hn : n + 2 ≤ D) {a : Nat} (ha : loc (P.take n) = some a)
    (hno : loc (P.take (n + 1)) = none) (hs : SlotAt loc (cellsOf D loc K) s (P.take n)) :
    ∃ w nm, insertStep D P ⟨h, root, s⟩ n = .ok (w, false) ∧
      FreshAt h.next (upd h.node a (some nm)) root (if n + 2 = D then .term else .branch) w ∧
      nm.kind = .branch ∧
      nm.cells.length = ((List.range 64).filterMap (cellsOf D loc K (P.take n))).length + 1 ∧
      (∀ j, j < 64 → nm.mask.getLsbD j =
        if P[n]? = some j then true else (loc (P.take n ++ [j])).isSome) := by
  have hlt : n < P.length := by omega
  have hget : P[n]? = some P[n] := List.getElem?_eq_getElem hlt
  have htake := take_succ_of_getElem? hget
  generalize hi : P[n] = i at *
  have hi64 : i < 64 := by rw [← hi]; exact hP _ (List.getElem_mem _)
  rw [htake] at hno
  have hpl : (P.take n).length = n := by simp; omega
  generalize hp : P.take n = p at *
  obtain ⟨n0, hd, hdm, hn0, hk, hrep⟩ := H.rep.deref ha
  obtain ⟨m, hm, rfl⟩ : ∃ m, h.node a = some m ∧ fixLen m = n0 := by
    have : (h.node a).map fixLen = some n0 := hn0
    simpa [Option.map_eq_some_iff] using this
  have hkind : m.kind = .branch := by
    rw [fixLen_kind] at hk; rw [hk]; unfold kindOf; rw [if_pos (by omega)]
  obtain ⟨hc1, hc2⟩ := hT a m hm hkind
  have hlen : m.len = ((List.range 64).filterMap (cellsOf D loc K p)).length := by
    have := hrep.len_eq
    unfold fixLen at this
    rw [if_pos hkind] at this
    simpa using this
  have hbits := hrep.bits
  rw [fixLen_mask] at hbits
  have hcell : ∀ j, cellsOf D loc K p j = (loc (p ++ [j])).map (fun a => .ptr (.heap a)) :=
    fun j => cellsOf_branch (by omega) j
  have hle64 := filterMap_length_le (cellsOf D loc K p)
  have hrank : (List.range i).countP (fun j => m.mask.getLsbD j) ≤ m.len := by
    have e1 := denseIndex_eq hbits hi64
    rw [denseIndex_word m.mask hi64] at e1
    simp only [Except.ok.injEq] at e1
    rw [e1, hlen, filterMap_split _ hi64]
    unfold rank
    simp
  have hread : (Walk.mk h root s).read = .ok (.heap a) := by
    have := read_slot (w := fixW ⟨h, root, s⟩) H ha hs
    rwa [read_fix] at this
  have hd' : deref h (.heap a) = .ok m := by simp [deref, hm, unwrapU]
  have hc' : m.contains i = .ok false := by
    unfold Node.contains
    rw [getBitUnchecked_eq _ hi64, hbits i hi64, hcell, hno]; rfl
  have hanext : a < h.next := H.rep.lt_next ha
  obtain ⟨sc, hnew⟩ := newChild (h := h) h9 hn
  generalize hkd : (if n + 2 = D then Kind.term else .branch) = k at *
  have hma : (h.alloc ⟨k, 0, defaultCap, 1, [sc, .uninit]⟩).1.node a = some m := by
    simp only [Heap.alloc]; rw [upd_ne _ _ (by omega), hm]
  obtain ⟨nm, d, f1, f2, f3, f4, f5⟩ := nodeInsert_room (i := i) hma hkind (by omega) (by omega)
    (by omega) hi64 hrank (.ptr (.heap h.next))
  generalize hh2 : (h.alloc ⟨k, 0, defaultCap, 1, [sc, .uninit]⟩).1.put a nm = h2 at *
  have h2a : h2.node a = some nm := by rw [← hh2]; simp [Heap.put]
  have h2f : h2.node h.next = some ⟨k, 0, defaultCap, 1, [sc, .uninit]⟩ := by
    rw [← hh2]; simp only [Heap.put]; rw [upd_ne _ _ (by omega)]; simp [Heap.alloc]
  have h2o : ∀ x, x < h.next → x ≠ a → h2.node x = h.node x := by
    intro x h1 h3
    rw [← hh2]; simp only [Heap.put]; rw [upd_ne _ _ h3]; simp only [Heap.alloc]
    rw [upd_ne _ _ (by omega)]
  have h2n : h2.next = h.next + 1 := by rw [← hh2]; rfl
  have hwrite : (Walk.mk h2 root s).write (.heap a) = .ok ⟨h2, root, s⟩ := by
    cases s with
    | root => exact write_same (w := ⟨h2, root, .root⟩) hread (fun a d n he => by cases he)
    | cell b e =>
      obtain ⟨q, j, rfl, hb, rfl⟩ := hs
      have hba : b ≠ a := by
        intro he; rw [he] at hb
        exact append_ne_self q j (H.rep.inj _ _ _ ha hb)
      obtain ⟨nb, -, -, hnb, hkb, -⟩ := H.rep.deref hb
      obtain ⟨mb, hmb, rfl⟩ : ∃ m, h.node b = some m ∧ fixLen m = nb := by
        have : (h.node b).map fixLen = some nb := hnb
        simpa [Option.map_eq_some_iff] using this
      have h2b := h2o b (H.rep.lt_next hb) hba
      refine write_same ?_ ?_
      · simp only [Walk.read] at hread ⊢
        rw [h2b]; exact hread
      · intro x e' y he hy
        cases he
        simp only at hy
        rw [h2b, hmb] at hy
        cases hy
        rw [fixLen_kind] at hkb
        rw [hkb]; unfold kindOf
        simp only [List.length_append, List.length_singleton] at hpl
        rw [if_pos (by omega)]
  refine ⟨⟨h2, root, .cell a d⟩, nm, ?_, ⟨rfl, a, d, nm, h.next, sc, rfl, h2a, f2, f3, h2f, by omega,
    ?_, Nat.le_refl _, ?_, ?_⟩, f2, ?_, ?_⟩
  · unfold insertStep
    simp only [getP_some hget, bind_ok, hread, hd', hc', Bool.false_eq_true, if_false]
    by_cases hND : n = D - 2
    · rw [if_pos hND] at hnew ⊢
      simp only [hnew, bind_ok]
      simp only [Heap.alloc] at f1 hh2 ⊢
      simp only [f1, hh2, bind_ok]
      rw [hwrite]; rfl
    · rw [if_neg hND] at hnew ⊢
      cases he : emptyNode (n + 2) D with
      | error x => rw [he] at hnew; cases hnew
      | ok x =>
        rw [he] at hnew
        simp only [bind_ok] at hnew ⊢
        simp only [hnew, bind_ok]
        simp only [Heap.alloc] at f1 hh2 ⊢
        simp only [f1, hh2, bind_ok]
        rw [hwrite]; rfl
  · show a < h2.next
    omega
  · show h.next < h2.next
    omega
  · intro x hx
    show h2.node x = _
    by_cases e : x = a
    · subst e; rw [upd_same, h2a]
    · rw [upd_ne _ _ e, h2o x hx e]
  · rw [f4]; omega
  · intro j hj
    rw [f5 j hj, hbits j hj, hcell]
    rw [hget]
    by_cases e : j = i
    · subst e; simp
    · rw [if_neg e, if_neg (by simpa using fun h => e h.symm)]
      cases loc (p ++ [j]) <;> rfl

theorem filterMap_upd_len {f : Nat → Option Cell} {i : Nat} (hi : i < 64) (hf : f i = none) {x : Cell} :
    ((List.range 64).filterMap (upd f i (some x))).length = ((List.range 64).filterMap f).length + 1 := by
  rw [filterMap_split _ hi, filterMap_split f hi, below_upd, above_upd, upd_same, hf]
  simp only [Option.toList, List.length_append, List.length_cons, List.length_nil]
  omega

theorem rank_all {f : Nat → Option Cell} {i : Nat} (hi : i < 64) (hf : ∀ j, i ≤ j → f j = none) :
    rank f i = ((List.range 64).filterMap f).length := by
  rw [filterMap_split f hi, hf i (Nat.le_refl _)]
  have : above f i = [] := by
    unfold above
    rw [List.filterMap_eq_nil_iff]
    intro j hj
    simp only [List.mem_map] at hj
    obtain ⟨x, -, rfl⟩ := hj
    exact hf _ (by omega)
  rw [this]
  simp [rank]

/-- An insertion that gives a full branch node of an inexact materialized tree a new child: the call
succeeds, and then every lookup that has to use the sentinel of that node reads outside of it. -/
theorem insert_lossy {α : Type} {t : DT α} (H : TInv D (fixHeap t.heap) t.root loc K)
    (hT : TightB t.heap) (h9 : D ≤ 9) {k : Nat} (hk : k < 64 ^ D)
    {n : Nat} (hn : n + 2 ≤ D) {a : Nat} (ha : loc ((path 64 D k).take n) = some a)
    (hno : loc ((path 64 D k).take (n + 1)) = none) (ins : Bool) (v : α) :
    ∃ out, getOrInsertImpl D t k ins v = .ok out ∧ out.dropped = [] ∧
      ∀ k', k' < 64 ^ D → (path 64 D k').take n = (path 64 D k).take n →
        (path 64 D k).getD n 0 < (path 64 D k').getD n 0 →
        (∀ j, loc ((path 64 D k).take n ++ [j]) ≠ none → j < (path 64 D k').getD n 0) →
        treeData D out.tree k' (path 64 D k') = .error .ub := by
  have hP := validPath_path (D := D) hk
  have hPD := path_length 64 D k
  have hlev : levelIndices 1 D k = .ok (path 64 D k) := levelIndices_ok (by omega) h9
  generalize hPP : path 64 D k = P at *
  obtain ⟨s, e1, hs⟩ := insertSteps_fix H hP hPD n a (by omega) ha
  obtain ⟨w1, nm, e2, F1, hnk, hnc, hnb⟩ := insertStep_lossy H hT h9 hP hPD hn ha hno hs
  obtain ⟨w2, e3, F2⟩ := F1.steps hP hPD h9 (D - 1 - (n + 1)) (n + 1) w1 (by omega)
  have hwalk : insertWalk D t P = .ok w2 := by
    unfold insertWalk
    rw [constLoop_eq _ _ _ _ (by omega) (by omega)]
    have hr : rangeFromTo 0 (D - 1) =
        List.range n ++ (n :: (List.range (D - 1 - (n + 1))).map (· + (n + 1))) := by
      have h0 : rangeFromTo 0 (D - 1) = (List.range (D - 1)).map (· + 0) := rfl
      rw [h0]
      have : D - 1 = n + (1 + (D - 1 - (n + 1))) := by omega
      generalize D - 1 - (n + 1) = z at *
      rw [this, List.range_add, List.range_add]
      simp only [Nat.add_zero, List.map_id', List.range_one, List.map_append, List.map_cons,
        List.map_nil, List.map_map, List.singleton_append]
      congr 2
      apply List.map_congr_left
      intro x _
      simp only [Function.comp]
      omega
    rw [hr, visitList_append, e1]
    simp only [bind_ok, Bool.false_eq_true, if_false, visitList, e2, e3, pure_eq_ok]
  have hlast : P.getLast? = some (P.getD (D - 1) 0) := by
    rw [List.getLast?_eq_getElem?, hPD, List.getD_eq_getElem?_getD,
      List.getElem?_eq_getElem (by omega)]; rfl
  have hl64 : P.getD (D - 1) 0 < 64 := by
    rw [List.getD_eq_getElem?_getD, List.getElem?_eq_getElem (by omega : D - 1 < P.length)]
    exact hP _ (List.getElem_mem _)
  obtain ⟨b, f, d, n0, d', h2, n2, q1, q2, q3, q4, q5, q6, q7, q8, q9, q10, q11, q12, q13⟩ :=
    F2.insert hl64 (.idx (t.data.length % 2 ^ 32)) w2.heap (fun _ _ => rfl)
  obtain ⟨hroot, -, -, -, -, -, -, -, -, -, -, -, -, -, -, hbase⟩ := F2
  refine ⟨⟨⟨h2, t.root, t.data ++ [some v], t.keys ++ [k]⟩, t.data.length, [], true⟩, ?_, rfl, ?_⟩
  · unfold getOrInsertImpl
    have hw : ({ w2 with heap := h2 } : Walk) = ⟨h2, t.root, w2.slot⟩ := by rw [← hroot]
    simp only [hlev, bind_ok, hwalk, q2, hlast, unwrapU, q3, q4, Bool.false_eq_true, if_false, q6]
    rw [hw, q9]; rfl
  · intro k' hk' htk hlt hall
    have hP' := validPath_path (D := D) hk'
    have hPD' := path_length 64 D k'
    generalize path 64 D k' = P' at *
    have hnode : ∀ x, x < t.heap.next → h2.node x = upd t.heap.node a (some nm) x := by
      intro x hx
      rw [q13 x (by omega), hbase x hx]
    have hanext : a < t.heap.next := H.rep.lt_next ha
    have hdesc : terminalLoop h2 P' (List.range n) t.root = .ok (.heap a) := by
      rw [← terminalLoop_fix]
      refine TInv.descend (x := a) H hP' hPD' ?_ n a (by omega) (by rw [htk]; exact ha) ?_
      · intro q b hq hb
        simp only [fixHeap]
        have hlt : b < t.heap.next := H.rep.lt_next hq
        rw [hnode b hlt, upd_ne _ _ hb]
      · intro m b hm hb he
        subst he
        have := H.rep.inj _ _ _ hb (htk ▸ ha)
        have := congrArg List.length this
        simp only [List.length_take] at this
        omega
    have hlt' : n < P'.length := by omega
    have hget' : P'[n]? = some (P'.getD n 0) := by
      rw [List.getD_eq_getElem?_getD, List.getElem?_eq_getElem hlt']; rfl
    have hget : P[n]? = some (P.getD n 0) := by
      rw [List.getD_eq_getElem?_getD, List.getElem?_eq_getElem (by omega : n < P.length)]; rfl
    have hi64 : P'.getD n 0 < 64 := by
      rw [List.getD_eq_getElem?_getD, List.getElem?_eq_getElem hlt']
      exact hP' _ (List.getElem_mem _)
    generalize P'.getD n 0 = i at *
    generalize P.getD n 0 = i0 at *
    have hch : getChild h2 (.heap a) i = .error .ub := by
      unfold getChild
      simp only [deref, hnode a hanext, upd_same, unwrapU, bind_ok, denseIndex_word nm.mask hi64]
      have hcount : (List.range i).countP (fun j => nm.mask.getLsbD j) = nm.cells.length := by
        have hcell : ∀ j, cellsOf D loc K (P.take n) j =
            (loc (P.take n ++ [j])).map (fun a => .ptr (.heap a)) :=
          fun j => cellsOf_branch (by rw [List.length_take]; omega) j
        have hf0 : cellsOf D loc K (P.take n) i0 = none := by
          rw [take_succ_of_getElem? hget] at hno
          rw [hcell, hno]; rfl
        have hb : ∀ j, j < 64 → nm.mask.getLsbD j =
            (upd (cellsOf D loc K (P.take n)) i0 (some .uninit) j).isSome := by
          intro j hj
          rw [hnb j hj, hget]
          by_cases e : j = i0
          · subst e; simp
          · rw [if_neg (by simpa using fun h => e h.symm), upd_ne _ _ e, hcell]
            cases loc (P.take n ++ [j]) <;> rfl
        have e1 := denseIndex_eq hb hi64
        rw [denseIndex_word nm.mask hi64] at e1
        simp only [Except.ok.injEq] at e1
        rw [e1, hnc, ← filterMap_upd_len (by omega) hf0]
        refine rank_all hi64 ?_
        intro j hj
        rw [upd_ne _ _ (by omega), hcell]
        cases hj' : loc (P.take n ++ [j]) with
        | none => rfl
        | some x =>
          have := hall j (by rw [hj']; simp)
          omega
      rw [hcount]
      unfold getU
      simp
    have hr : List.range (D - 1) = List.range n ++ (n :: (List.range (D - 1 - (n + 1))).map (n + 1 + ·)) := by
      have : D - 1 = n + (1 + (D - 1 - (n + 1))) := by omega
      generalize D - 1 - (n + 1) = z at *
      rw [this, List.range_add, List.range_add]
      simp only [List.range_one, List.map_append, List.map_cons,
        List.map_nil, List.map_map, List.singleton_append, Nat.add_zero]
      congr 2
      apply List.map_congr_left
      intro x _
      simp only [Function.comp]
      omega
    unfold treeData getTerminalNode
    simp only
    rw [hr, terminalLoop_append, hdesc]
    simp only [bind_ok, terminalLoop, getU_some hget', hch]
    rfl

/-! ## Removing the last key of a block -/

/-- The node at a live path, before and after the repair. -/
theorem TInv.unfixed {h : Heap} {root : Ptr} (H : TInv D (fixHeap h) root loc K) {q : List Nat} {a : Nat}
    (ha : loc q = some a) : ∃ m, h.node a = some m ∧ m.kind = kindOf D q ∧
      NodeRep (fixLen m) (cellsOf D loc K q) (sent D q) := by
  obtain ⟨n0, -, -, hn0, hk, hrep⟩ := H.rep.deref ha
  obtain ⟨m, hm, rfl⟩ : ∃ m, h.node a = some m ∧ fixLen m = n0 := by
    have : (h.node a).map fixLen = some n0 := hn0
    simpa [Option.map_eq_some_iff] using this
  exact ⟨m, hm, by rw [← fixLen_kind]; exact hk, hrep⟩

/-- Pruning after the removal of the last key of a block, at a full parent whose last child this is:
the parent keeps the cell with the dangling pointer. -/
theorem removeCell_lossy {α : Type} {t : DT α} (H : TInv D (fixHeap t.heap) t.root loc K)
    (hT : TightB t.heap) (h9 : D ≤ 9) {r : List Nat} {i x a b d : Nat}
    (hP : ValidPath 64 (r ++ [i] ++ [x])) (hl : r.length + 2 = D) (ha : loc r = some a)
    (hb : loc (r ++ [i]) = some b) (hK : K (r ++ [i] ++ [x]) = some d)
    (halone : ∀ j, j ≠ x → K (r ++ [i] ++ [j]) = none)
    (htop : ∀ j, i < j → loc (r ++ [j]) = none)
    (hc : D = 2 ∨ ((List.range 64).filterMap (cellsOf D loc K r)).length ≠ 2)
    {qs : List Ptr} (hqs : D ≠ 2 → qs[D - 3]? = some (.heap a)) :
    ∃ m m', t.heap.node a = some m ∧ m'.cells = m.cells ∧ m'.kind = .branch ∧
      (∀ j, j < 64 → m'.mask.getLsbD j = if j = i then false else (loc (r ++ [j])).isSome) ∧
      m.cells[rank (cellsOf D loc K r) i]? = some (.ptr (.heap b)) ∧
      removeCell D t (r ++ [i] ++ [x]) qs (.heap b) x =
        .ok ⟨upd (upd t.heap.node b none) a (some m'), t.heap.next⟩ := by
  obtain ⟨hPi, hx⟩ := ValidPath.of_append hP
  obtain ⟨hPr, hi⟩ := ValidPath.of_append hPi
  have hli : (r ++ [i]).length + 1 = D := by simp; omega
  have hab : a ≠ b := by
    intro e; subst e
    exact append_ne_self r i (H.rep.inj _ _ _ hb ha)
  -- the terminal node
  obtain ⟨nb, hnb, hkb, hrb⟩ := H.unfixed hb
  have hkb' : nb.kind = .term := by rw [hkb]; unfold kindOf; rw [if_neg (by omega)]
  rw [fixLen_term hkb'] at hrb
  obtain ⟨mb, cb, e1, e2, e3, e4, e5⟩ := hrb.remove_cells hx (v := .idx d) (by rw [cellsOf_term hli, hK]; rfl)
  have hone : nb.len - 1 = 1 := by
    have := e5.len_one
    simp only at this
    rw [this]
    intro j hj
    by_cases e : j = x
    · subst e; simp
    · rw [upd_ne _ _ e, cellsOf_term hli, halone j e]; rfl
  have hcapb : cb.length = nb.cap := by
    have := copyCells_len e4
    rw [this]; exact hrb.cap_eq
  have hrem : nodeRemove t.heap .term (.heap b) x =
      .ok (t.heap.put b { nb with mask := mb, len := nb.len - 1, cells := cb }) := by
    unfold nodeRemove
    simp only [derefMut, hnb, unwrapU, bind_ok, pure_eq_ok]
    rw [if_neg (by simp [hkb'])]
    simp only [e2, e1, bind_ok, if_pos e3, e4]
  -- the parent
  obtain ⟨m, hm, hkm, hrm⟩ := H.unfixed ha
  have hkm' : m.kind = .branch := by rw [hkm]; unfold kindOf; rw [if_pos (by omega)]
  obtain ⟨hc1, hc2⟩ := hT a m hm hkm'
  have hlen : m.len = ((List.range 64).filterMap (cellsOf D loc K r)).length := by
    have := hrm.len_eq
    unfold fixLen at this
    rw [if_pos hkm'] at this
    simpa using this
  have hbits := hrm.bits
  rw [fixLen_mask] at hbits
  have hcell : ∀ j, cellsOf D loc K r j = (loc (r ++ [j])).map (fun a => .ptr (.heap a)) :=
    fun j => cellsOf_branch (by omega) j
  have hci : cellsOf D loc K r i = some (.ptr (.heap b)) := by rw [hcell, hb]; rfl
  have hrank : rank (cellsOf D loc K r) i + 1 = m.len := by
    rw [hlen, filterMap_split _ hi, hci]
    have : above (cellsOf D loc K r) i = [] := by
      unfold above
      rw [List.filterMap_eq_nil_iff]
      intro j hj
      simp only [List.mem_map] at hj
      obtain ⟨y, -, rfl⟩ := hj
      rw [hcell, htop _ (by omega)]; rfl
    rw [this]
    simp [rank]
  obtain ⟨w', b1, b2⟩ := setBitUnchecked_spec false m.mask hi
  have hdi := denseIndex_eq hbits hi
  generalize hrk : rank (cellsOf D loc K r) i = rk at *
  have hcopy : copyCells m.cells (rk + 1) rk (m.len - rk - 1) = .ok m.cells := by
    unfold copyCells
    rw [if_pos (by omega)]
    rw [show m.len - rk - 1 = 0 by omega]
    simp
  have hget : m.cells[rk]? = some (.ptr (.heap b)) := by
    obtain ⟨cx, k1, k2, -⟩ := hrm.getCell hi
    rw [fixLen_cells, hrk] at k1
    rw [k1, k2 _ hci]
  refine ⟨m, { m with mask := w', len := m.len - 1 }, hm, rfl, hkm', ?_, hget, ?_⟩
  · intro j hj
    simp only
    rw [b2 j hj, hbits j hj, hcell]
    by_cases e : j = i
    · subst e; simp
    · rw [if_neg e, if_neg e]; cases loc (r ++ [j]) <;> rfl
  · unfold removeCell
    rw [hrem]
    have hput : (t.heap.put b { nb with mask := mb, len := nb.len - 1, cells := cb }).node b =
        some { nb with mask := mb, len := nb.len - 1, cells := cb } := by simp [Heap.put]
    simp only [bind_ok, deref, hput, unwrapU]
    rw [if_pos hone]
    have hdrop : dropNode (t.heap.put b { nb with mask := mb, len := nb.len - 1, cells := cb }) .term
        (.heap b) = .ok ⟨upd t.heap.node b none, t.heap.next⟩ := by
      unfold dropNode
      simp only [derefMut, hput, unwrapU, bind_ok, pure_eq_ok]
      unfold Heap.dealloc
      simp only [hput, unwrapU, bind_ok]
      rw [if_pos ⟨hkb', hcapb⟩]
      simp only [pure_eq_ok, Heap.put]
      congr 2
      funext y
      by_cases e : y = b
      · subst e; simp
      · rw [upd_ne _ _ e, upd_ne _ _ e, upd_ne _ _ e]
    rw [hdrop]
    simp only [bind_ok]
    rw [constLoopRev_eq _ _ _ _ (by omega) (by omega)]
    have hrange : (rangeFromTo 0 (D - 1)).reverse = (D - 2) :: (List.range (D - 2)).reverse := by
      have : rangeFromTo 0 (D - 1) = List.range (D - 1) := by simp [rangeFromTo]
      rw [this, show D - 1 = (D - 2) + 1 by omega, List.range_succ]
      simp
    rw [hrange]
    have hnode : (if D - 2 = 0 then Except.ok t.root else getP qs (D - 2 - 1)) = .ok (.heap a) := by
      by_cases h2 : D = 2
      · rw [if_pos (by omega)]
        have hr0 : r = [] := List.length_eq_zero_iff.1 (by omega)
        obtain ⟨ra, q1, q2⟩ := H.root
        rw [hr0, q1] at ha
        cases ha
        rw [q2]
      · rw [if_neg (by omega), show D - 2 - 1 = D - 3 by omega, getP_some (hqs h2)]
    have hma : upd t.heap.node b none a = some m := by rw [upd_ne _ _ hab, hm]
    have hPi : (r ++ [i] ++ [x])[D - 2]? = some i := by
      rw [List.append_assoc, List.getElem?_append_right (by omega), show D - 2 - r.length = 0 by omega]
      rfl
    have hstep : climbStep t.root qs (r ++ [i] ++ [x]) ⟨upd t.heap.node b none, t.heap.next⟩ (D - 2) =
        .ok (⟨upd (upd t.heap.node b none) a (some { m with mask := w', len := m.len - 1 }),
          t.heap.next⟩, decide (m.len - 1 ≠ 1)) := by
      rw [climbStep_eq hnode, getP_some hPi]
      have hrm2 : nodeRemove ⟨upd t.heap.node b none, t.heap.next⟩ .branch (.heap a) i =
          .ok ⟨upd (upd t.heap.node b none) a (some { m with mask := w', len := m.len - 1 }),
            t.heap.next⟩ := by
        unfold nodeRemove
        simp only [derefMut, hma, unwrapU, bind_ok, pure_eq_ok]
        rw [if_neg (by simp [hkm'])]
        simp only [hdi, b1, bind_ok, if_pos (show rk + 1 ≤ m.len by omega), hcopy]
        rfl
      simp only [bind_ok, hrm2, deref, upd_same, unwrapU]
      by_cases h1 : m.len - 1 = 1
      · rw [if_neg (by simp [h1])]
        have h2 : D = 2 := by
          rcases hc with h | h
          · exact h
          · omega
        rw [if_neg (by simp; omega)]
        simp [h1]
      · rw [if_pos h1]
        simp [h1]
    unfold visitList
    rw [hstep]
    simp only [bind_ok]
    by_cases h1 : m.len - 1 = 1
    · have h2 : D = 2 := by
        rcases hc with h | h
        · exact h
        · omega
      subst h2
      simp [h1, visitList]
    · simp [h1]

/-- The descent along live children, in a heap with the same child pointers. -/
theorem TInv.reach {h h' : Heap} {root : Ptr} (H : TInv D h root loc K) {P : List Nat}
    (hPD : P.length = D) : ∀ (n a : Nat), n < D → loc (P.take n) = some a →
      (∀ m c c' j, m < n → P[m]? = some j → loc (P.take m) = some c → loc (P.take m ++ [j]) = some c' →
        getChild h' (.heap c) j = .ok (.ptr (.heap c'))) →
      terminalLoop h' P (List.range n) root = .ok (.heap a) := by
  intro n
  induction n with
  | zero =>
    intro a _ ha _
    obtain ⟨r, h1, h2⟩ := H.root
    simp only [List.take_zero] at ha
    rw [h1] at ha; cases ha
    rw [h2]; rfl
  | succ n ih =>
    intro a hn ha hch
    have hget := List.getElem?_eq_getElem (show n < P.length by omega)
    rw [take_succ_of_getElem? hget] at ha
    obtain ⟨b, hb⟩ := H.closed _ _ _ ha
    have e1 := ih b (by omega) hb (fun m c c' j hm => hch m c c' j (by omega))
    have hch' := hch n b a _ (by omega) hget hb ha
    rw [List.range_succ, terminalLoop_append, e1]
    simp only [bind_ok]
    unfold terminalLoop
    rw [getU_some hget]
    simp only [bind_ok, hch', Cell.asPtr]
    rfl

theorem getChild_node {h h' : Heap} {a i : Nat} (e : h'.node a = h.node a) :
    getChild h' (.heap a) i = getChild h (.heap a) i := by
  unfold getChild
  simp only [deref, e]

theorem rank_upd_lt {f : Nat → Option Cell} {i j : Nat} (hj : j ≤ i) (y : Option Cell) :
    rank (upd f i y) j = rank f j := by
  unfold rank
  rw [filterMap_congr_range (g := f) (fun l hl => upd_ne _ _ (by omega))]

/-- Removing the last key of a block whose node is the last child of its (full) parent: the call
returns the value, and then every lookup that has to use the sentinel of the parent follows the
dangling pointer. -/
theorem remove_lossy {α : Type} {ex : List Nat → Prop} {M : Nat → Option α} {t : DT α}
    (S : DS ex D (fixT t) M loc K) (hT : TightB t.heap) (h9 : D ≤ 9) {k : Nat} (hk : k < 64 ^ D)
    {v : α} (hM : M k = some v) (halone : ∀ k', k' / 64 = k / 64 → k' ≠ k → M k' = none)
    {r : List Nat} {i x : Nat} (hPP : path 64 D k = r ++ [i] ++ [x])
    (htop : ∀ j, i < j → loc (r ++ [j]) = none)
    (hc : D = 2 ∨ ((List.range 64).filterMap (cellsOf D loc K r)).length ≠ 2) :
    ∃ t', remove D t k = .ok (t', some v) ∧
      ∀ k', k' < 64 ^ D → (path 64 D k').take (D - 2) = r →
        (∀ j, j ≠ i → loc (r ++ [j]) ≠ none → j < (path 64 D k').getD (D - 2) 0) →
        treeData D t' k' (path 64 D k') = .error .ub := by
  have H : TInv D (fixHeap t.heap) t.root loc K := S.tree
  have hPv := validPath_path hk
  have hPl := path_length 64 D k
  have hupath := unpath_path 64 D k hk
  have hden := S.den_path hPv hPl
  rw [hPP] at hPv hPl hupath hden
  rw [hupath, hM] at hden
  have hl : r.length + 2 = D := by simp at hPl; omega
  have hlev : levelIndices 1 D k = .ok (r ++ [i] ++ [x]) := by rw [← hPP]; exact levelIndices_ok (by omega) h9
  have hli : (r ++ [i]).length + 1 = D := by simp; omega
  obtain ⟨hPi, hx⟩ := ValidPath.of_append hPv
  obtain ⟨hPr, hi⟩ := ValidPath.of_append hPi
  obtain ⟨d, hK⟩ : ∃ d, K (r ++ [i] ++ [x]) = some d := by
    cases h : K (r ++ [i] ++ [x]) with
    | none => rw [h] at hden; cases hden
    | some d => exact ⟨d, rfl⟩
  obtain ⟨g1, v', g2⟩ := S.data.value hK
  have g2' : t.data[d]? = some (some v) := by
    rw [hK] at hden
    simp only [Option.bind_some] at hden
    rw [g2] at hden
    simp only [Option.join_some, Option.some.injEq] at hden
    rw [hden]; exact g2
  have hkey : t.keys[d]? = some k := by
    have := (S.data.keyOf _ _ hK).2
    rw [hupath] at this
    exact this
  obtain ⟨b, hb⟩ := H.klive _ _ _ hK
  obtain ⟨a, ha⟩ := H.closed _ _ _ hb
  have hkx := hupath
  rw [unpath_snoc (r ++ [i]) x] at hkx
  have haloneK : ∀ j, j ≠ x → K (r ++ [i] ++ [j]) = none := by
    intro j hj
    cases hKj : K (r ++ [i] ++ [j]) with
    | none => rfl
    | some d' =>
      obtain ⟨hv', hl'⟩ := H.kvalid _ _ hKj
      have e1 := S.den_path hv' hl'
      obtain ⟨_, u, hu⟩ := S.data.value hKj
      rw [hKj] at e1
      simp only [Option.bind_some] at e1
      rw [hu, halone] at e1
      · cases e1
      · rw [unpath_snoc (r ++ [i]) j]
        have := (ValidPath.of_append hv').2
        omega
      · rw [unpath_snoc (r ++ [i]) j]
        omega
  obtain ⟨ra, hr, hroot⟩ := H.root
  have htk : ∀ k, k ≤ (r ++ [i]).length → (r ++ [i] ++ [x]).take k = (r ++ [i]).take k :=
    fun k hk => List.take_append_of_le_length hk
  obtain ⟨qs, e1, e2, e3⟩ := H.branch_live (P := r ++ [i] ++ [x]) (D - 1) 0 ra (by omega)
    (by simpa using hr) (fun k hk => by
      rw [htk k (by omega)]; exact H.take_live _ rfl hb k)
  have hmap : (List.range (D - 1)).map (· + 0) = List.range (D - 1) := by simp
  rw [hmap, branchLoop_fix] at e1
  have hlastq : qs.getLast? = some (.heap b) := by
    obtain ⟨b', q1, q2⟩ := e3 (D - 1 - 1) (by omega)
    rw [show 0 + (D - 1 - 1) + 1 = (r ++ [i]).length by omega, htk _ (Nat.le_refl _),
      List.take_length, hb] at q1
    cases q1
    rw [List.getLast?_eq_getElem?, e2]; exact q2
  have hqs : D ≠ 2 → qs[D - 3]? = some (.heap a) := by
    intro hD
    obtain ⟨b', q1, q2⟩ := e3 (D - 3) (by omega)
    rw [show 0 + (D - 3) + 1 = r.length by omega, htk _ (by simp),
      List.take_append_of_le_length (Nat.le_refl _), List.take_length, ha] at q1
    cases q1
    exact q2
  have e4 : getChild t.heap (.heap b) x = .ok (.idx d) := by rw [← getChild_fix]; exact H.idx hb hK
  obtain ⟨m, m', hm, hmc, hmk, hmb, hcell, hrem⟩ :=
    removeCell_lossy H hT h9 hPv hl ha hb hK haloneK htop hc hqs
  have hab : a ≠ b := by
    intro e; subst e
    exact append_ne_self r i (H.rep.inj _ _ _ hb ha)
  -- the child function of the parent
  have hcells : ∀ j, cellsOf D loc K r j = (loc (r ++ [j])).map (fun a => .ptr (.heap a)) :=
    fun j => cellsOf_branch (by omega) j
  have hmb' : ∀ j, j < 64 → m'.mask.getLsbD j = (upd (cellsOf D loc K r) i none j).isSome := by
    intro j hj
    rw [hmb j hj]
    by_cases e : j = i
    · subst e; simp
    · rw [if_neg e, upd_ne _ _ e, hcells]; cases loc (r ++ [j]) <;> rfl
  have hB : ∀ (h' : Heap) (j c : Nat), h'.node a = some m' → j ≠ i → loc (r ++ [j]) = some c →
      getChild h' (.heap a) j = .ok (.ptr (.heap c)) := by
    intro h' j c hn hji hj
    have hj64 : j < 64 := (ValidPath.of_append (H.valid _ _ hj).1).2
    have hlt : j < i := by
      apply Classical.byContradiction
      intro hcon
      rw [htop j (by omega)] at hj; cases hj
    have horig := H.child ha hj
    rw [getChild_fix] at horig
    obtain ⟨m0, hm0, -, hr0⟩ := H.unfixed ha
    rw [hm] at hm0; cases hm0
    have hb0 := hr0.bits
    rw [fixLen_mask] at hb0
    unfold getChild at horig ⊢
    simp only [deref, hm, hn, unwrapU, bind_ok, denseIndex_eq hb0 hj64, denseIndex_eq hmb' hj64,
      rank_upd_lt (Nat.le_of_lt hlt), hmc] at horig ⊢
    exact horig
  have hC : ∀ (h' : Heap) (j : Nat), h'.node a = some m' → j < 64 →
      (∀ l, l ≠ i → loc (r ++ [l]) ≠ none → l < j) →
      getChild h' (.heap a) j = .ok (.ptr (.heap b)) := by
    intro h' j hn hj hall
    have hnone : ∀ l, (i ≤ l ∨ j ≤ l) → upd (cellsOf D loc K r) i none l = none := by
      intro l hl'
      by_cases e : l = i
      · subst e; simp
      · rw [upd_ne _ _ e, hcells]
        cases hll : loc (r ++ [l]) with
        | none => rfl
        | some y =>
          have := hall l e (by rw [hll]; simp)
          have h3 : ¬ i < l := by
            intro h3
            rw [htop l h3] at hll; cases hll
          omega
    unfold getChild
    simp only [deref, hn, unwrapU, bind_ok, denseIndex_eq hmb' hj, hmc]
    rw [rank_all hj (fun l hl' => hnone l (.inr hl')), ← rank_all hi (fun l hl' => hnone l (.inl hl')),
      rank_upd, getU_some hcell]
  generalize hh3 : (⟨upd (upd t.heap.node b none) a (some m'), t.heap.next⟩ : Heap) = h3 at hrem
  have h3a : h3.node a = some m' := by rw [← hh3]; simp
  have h3b : h3.node b = none := by rw [← hh3]; simp only; rw [upd_ne _ _ (Ne.symm hab)]; simp
  have h3o : ∀ y, y ≠ a → y ≠ b → h3.node y = t.heap.node y := by
    intro y q1 q2; rw [← hh3]; simp only; rw [upd_ne _ _ q1, upd_ne _ _ q2]
  have hadr : ∀ q c, loc q = some c → q ≠ r → q ≠ r ++ [i] → h3.node c = t.heap.node c := by
    intro q c hq q1 q2
    refine h3o c ?_ ?_
    · intro e; subst e; exact q1 (H.rep.inj _ _ _ hq ha)
    · intro e; subst e; exact q2 (H.rep.inj _ _ _ hq hb)
  -- the last key
  obtain ⟨t4, hrk, hd4, hr4, h4a, h4b, h4o⟩ : ∃ t4, removeKey D ⟨h3, t.root, t.data, t.keys⟩ k d = .ok t4 ∧
      t4.data = t.data ∧ t4.root = t.root ∧ t4.heap.node a = some m' ∧ t4.heap.node b = none ∧
      ∀ q c, loc q = some c → q.length + 1 < D → q ≠ r → t4.heap.node c = t.heap.node c := by
    unfold removeKey
    have hklen : 1 ≤ t.keys.length := by
      obtain ⟨hn, _⟩ := List.getElem?_eq_some_iff.1 hkey; omega
    obtain ⟨lk, hlk⟩ : ∃ lk, t.keys[t.keys.length - 1]? = some lk :=
      ⟨_, List.getElem?_eq_getElem (by omega)⟩
    simp only
    rw [List.getLast?_eq_getElem?, hlk]
    simp only [unwrapU, bind_ok]
    by_cases hne : lk = k
    · rw [if_neg (by simp [hne])]
      exact ⟨_, rfl, rfl, rfl, h3a, h3b, fun q c hq hq' hqr => hadr q c hq hqr (by
        intro e; rw [e] at hq'; omega)⟩
    · rw [if_pos hne]
      have hdlt : d < t.keys.length := (List.getElem?_eq_some_iff.1 hkey).1
      have hdne : d ≠ t.keys.length - 1 := by
        intro e
        rw [← e, hkey] at hlk
        cases hlk; exact hne rfl
      rw [setU_ok _ (by simp; omega)]
      obtain ⟨Q, hQ⟩ := S.data.surj (t.keys.length - 1) (by omega) (show _ < t.keys.length by omega)
      obtain ⟨hQv, hQl⟩ := H.kvalid _ _ hQ
      have hQk := (S.data.keyOf _ _ hQ).2
      have hQk' : t.keys[t.keys.length - 1]? = some (unpath 64 Q) := hQk
      rw [hlk] at hQk'
      simp only [Option.some.injEq] at hQk'
      have hlevQ : levelIndices 1 D lk = .ok Q := by
        rw [levelIndices_ok (by omega) h9, hQk', ← hQl, path_unpath hQv]
      rcases eq_nil_or_append Q with rfl | ⟨q, y, rfl⟩
      · simp at hQl; omega
      obtain ⟨hqv, hy⟩ := ValidPath.of_append hQv
      obtain ⟨c, hq⟩ := H.klive _ _ _ hQ
      have hql : q.length + 1 = D := by simpa using hQl
      have hqne : q ≠ r ++ [i] := by
        intro e
        subst e
        by_cases eyx : y = x
        · subst eyx
          rw [hQk', hupath] at hne
          exact hne rfl
        · rw [haloneK y eyx] at hQ; cases hQ
      have hqr : q ≠ r := by intro e; rw [e] at hql; omega
      have hca : c ≠ a := by intro e; subst e; exact hqr (H.rep.inj _ _ _ hq ha)
      have hcb : c ≠ b := by intro e; subst e; exact hqne (H.rep.inj _ _ _ hq hb)
      have hreach : terminalLoop h3 (q ++ [y]) (List.range (D - 1)) t.root = .ok (.heap c) := by
        have htq : (q ++ [y]).take (D - 1) = q := by
          rw [List.take_append_of_le_length (by omega), List.take_of_length_le (by omega)]
        refine H.reach hQl (D - 1) c (by omega) (by rw [htq]; exact hq) ?_
        intro n c1 c2 j hn hj hc1 hc2
        by_cases e1 : (q ++ [y]).take n = r
        · rw [e1] at hc1 hc2
          rw [ha] at hc1; cases hc1
          have hnr : n = r.length := by
            rw [← e1, List.length_take]; omega
          refine hB h3 j c2 h3a ?_ hc2
          intro e
          apply hqne
          rw [← htq, show D - 1 = n + 1 by omega, take_succ_of_getElem? hj, e1, e]
        · have e2 : (q ++ [y]).take n ≠ r ++ [i] := by
            intro e
            have := congrArg List.length e
            simp only [List.length_take, List.length_append, List.length_singleton] at this
            omega
          rw [getChild_node (hadr _ _ hc1 e1 e2), ← getChild_fix]
          exact H.child hc1 hc2
      obtain ⟨nc, hnc, hkc, hrc⟩ := H.unfixed hq
      have hkc' : nc.kind = .term := by rw [hkc]; unfold kindOf; rw [if_neg (by omega)]
      rw [fixLen_term hkc'] at hrc
      obtain ⟨hlt, -⟩ := hrc.set_cells hy (v := .idx (t.keys.length - 1))
        (by rw [cellsOf_term hql, hQ]; rfl) (.idx (d % 2 ^ 32))
      have hset : setChild h3 .term (.heap c) y (.idx (d % 2 ^ 32)) =
          .ok (h3.put c ⟨nc.kind, nc.mask, nc.cap, nc.len,
            nc.cells.set (rank (cellsOf D loc K q) y) (.idx (d % 2 ^ 32))⟩) := by
        unfold setChild
        simp only [derefMut, h3o c hca hcb, hnc, unwrapU, bind_ok, pure_eq_ok]
        rw [if_neg (by simp [hkc'])]
        simp only [denseIndex_eq hrc.bits hy, bind_ok, setU_ok _ hlt]
      refine ⟨⟨h3.put c ⟨nc.kind, nc.mask, nc.cap, nc.len,
            nc.cells.set (rank (cellsOf D loc K q) y) (.idx (d % 2 ^ 32))⟩, t.root, t.data,
            t.keys.dropLast.set d lk⟩, ?_, rfl, rfl, ?_, ?_, ?_⟩
      · unfold getTerminalNode
        simp only [bind_ok, hlevQ, hreach, List.getLast?_append, List.getLast?_singleton,
          Option.some_or, unwrapU, pure_eq_ok, hset]
      · simp only [Heap.put]; rw [upd_ne _ _ (Ne.symm hca)]; exact h3a
      · simp only [Heap.put]; rw [upd_ne _ _ (Ne.symm hcb)]; exact h3b
      · intro q' c' hq' hl' hne'
        have : c' ≠ c := by
          intro e; subst e
          have := H.rep.inj _ _ _ hq' hq
          rw [this] at hl'; omega
        simp only [Heap.put]
        rw [upd_ne _ _ this]
        exact hadr q' c' hq' hne' (by intro e; rw [e] at hl'; omega)
  obtain ⟨last, hlast⟩ : ∃ last, t.data.getLast? = some last := by
    have : t.data ≠ [] := by intro e; rw [e] at g2'; simp at g2'
    exact ⟨_, List.getLast?_eq_some_getLast this⟩
  refine ⟨{ t4 with data := (t.data.set d last).dropLast }, ?_, ?_⟩
  · unfold remove getBranch
    rw [indexFrom_ok h9, if_pos hk]
    simp only [bind_ok, hlev]
    rw [hroot] at hrk ⊢
    simp only [e1, bind_ok, hlastq, unwrapU, List.getLast?_append, List.getLast?_singleton,
          Option.some_or, e4, Cell.asIdx, getU_some hkey, if_true, hrem, hrk]
    unfold swapRemove
    simp only [hd4, getP_some g2', unwrapU, bind_ok, hlast, pure_eq_ok]
  · intro k' hk' htk' hall
    have hP' := validPath_path hk'
    have hl' := path_length 64 D k'
    generalize path 64 D k' = P' at *
    have hget' : P'[D - 2]? = some (P'.getD (D - 2) 0) := by
      rw [List.getD_eq_getElem?_getD, List.getElem?_eq_getElem (by omega : D - 2 < P'.length)]; rfl
    have hi64 : P'.getD (D - 2) 0 < 64 := by
      rw [List.getD_eq_getElem?_getD, List.getElem?_eq_getElem (by omega : D - 2 < P'.length)]
      exact hP' _ (List.getElem_mem _)
    have hlast' : P'.getLast? = some (P'.getD (D - 1) 0) := by
      rw [List.getLast?_eq_getElem?, hl', List.getD_eq_getElem?_getD,
        List.getElem?_eq_getElem (by omega)]; rfl
    have hreach : terminalLoop t4.heap P' (List.range (D - 2)) t4.root = .ok (.heap a) := by
      rw [hr4]
      refine H.reach hl' (D - 2) a (by omega) (by rw [htk']; exact ha) ?_
      intro n c1 c2 j hn hj hc1 hc2
      have hlen : (P'.take n).length = n := by rw [List.length_take]; omega
      rw [getChild_node (h4o _ _ hc1 (by omega) (by intro e; rw [e] at hlen; omega)), ← getChild_fix]
      exact H.child hc1 hc2
    have hchild := hC t4.heap _ h4a hi64 hall
    unfold treeData getTerminalNode
    simp only
    rw [show D - 1 = (D - 2) + 1 by omega, List.range_succ, terminalLoop_append, hreach]
    simp only [bind_ok, terminalLoop, getU_some hget', hchild, Cell.asPtr, hlast', unwrapU, pure_eq_ok]
    unfold getChild
    simp only [deref, h4b, unwrapU]
    rfl

end Hibit.Dense
