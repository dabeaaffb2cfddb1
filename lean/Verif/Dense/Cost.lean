import Verif.Dense.Footprint
/-!
# DenseTree: allocator calls and blocks written by one operation

`heap.next` counts the calls of `alloc` and `realloc` (node.rs:193-208, 304-317) ever made.
-/
namespace Hibit.Dense
open Hibit

/-! ## Inversion of the node operations -/

theorem nodeNew_inv {h h' : Heap} {k : Kind} {cap c : Nat} {e : Cell}
    (he : nodeNew h k cap e = .ok (h', c)) :
    c = h.next ∧ h'.next = h.next + 1 ∧
      (∃ n, h'.node h.next = some n ∧ n.mask = 0 ∧ n.len = 1 ∧ n.cap = cap) ∧
      ∀ x, x ≠ h.next → h'.node x = h.node x := by
  unfold nodeNew at he
  split at he
  · cases he
    refine ⟨rfl, rfl, ⟨⟨k, 0, cap, 1, e :: List.replicate (cap - 1) .uninit⟩, by simp [Heap.alloc],
      rfl, rfl, rfl⟩, ?_⟩
    intro x hx
    simp only [Heap.alloc]
    rw [upd_ne _ _ hx]
  · cases he

/-- What `nodeInsert` does to the heap: the node grows (moves) exactly when it is full. -/
theorem nodeInsert_inv {h h' : Heap} {k : Kind} {a i d a' : Nat} {v : Cell}
    (he : nodeInsert h k (.heap a) i v = .ok (h', d, a')) :
    ∃ n n', h.node a = some n ∧ h'.node a' = some n' ∧ n'.len = n.len + 1 ∧
      ((n.len ≠ n.cap ∧ a' = a ∧ h'.next = h.next ∧ n'.cap = n.cap) ∨
       (n.len = n.cap ∧ a' = h.next ∧ h'.next = h.next + 1 ∧ n'.cap = n.cap * 2 ∧
         (a ≠ h.next → h'.node a = none))) ∧
      ∀ x, x ≠ a → x ≠ a' → h'.node x = h.node x := by
  unfold nodeInsert at he
  obtain ⟨⟨a0, n⟩, e1, he⟩ := bind_inv he
  obtain ⟨n0, e2, e3⟩ := bind_inv e1
  have hn := unwrapU_inv e2
  cases e3
  refine ⟨n, ?_⟩
  by_cases hk : n.kind = k
  case neg => simp only [ne_eq, hk, not_false_eq_true, if_true] at he; cases he
  simp only [ne_eq, hk, not_true_eq_false, if_false] at he
  obtain ⟨⟨h1, a1, n1⟩, eg, he⟩ := bind_inv he
  simp only at he
  obtain ⟨⟨_, mask⟩, -, he⟩ := bind_inv he
  simp only at he
  obtain ⟨d1, -, he⟩ := bind_inv he
  by_cases hd1 : d1 ≤ n1.len
  case neg => simp only [if_neg hd1] at he; cases he
  simp only [if_pos hd1, bind_ok] at he
  obtain ⟨cells, -, he⟩ := bind_inv he
  obtain ⟨cells2, -, he⟩ := bind_inv he
  by_cases hl1 : n1.len + 1 < 256
  case neg => simp only [if_neg hl1] at he; cases he
  simp only [if_pos hl1, bind_ok] at he
  cases he
  unfold nodeGrow at eg
  by_cases hf : n.len = n.cap
  · rw [if_pos hf] at eg
    by_cases hc2 : n.cap * 2 < 256
    case neg => simp only [if_neg hc2] at eg; cases eg
    simp only [if_pos hc2, bind_ok] at eg
    obtain ⟨h0, e6, eg⟩ := bind_inv eg
    unfold Heap.dealloc at e6
    obtain ⟨n2, -, e6⟩ := bind_inv e6
    split at e6
    case isFalse => cases e6
    cases e6
    simp only [Heap.alloc, pure_eq_ok] at eg
    cases eg
    refine ⟨_, hn, by simp only [Heap.put, upd_same]; rfl, rfl, .inr ⟨hf, rfl, rfl, rfl, ?_⟩, ?_⟩
    · intro hne
      simp only [Heap.put]
      rw [upd_ne _ _ hne, upd_ne _ _ hne, upd_same]
    · intro x h1 h2
      simp only [Heap.put]
      rw [upd_ne _ _ h2, upd_ne _ _ h2, upd_ne _ _ h1]
  · rw [if_neg hf] at eg
    cases eg
    refine ⟨{ n with mask := mask, len := n.len + 1, cells := cells2 }, hn,
      by simp only [Heap.put, upd_same], rfl, .inl ⟨hf, rfl, rfl, rfl⟩, ?_⟩
    intro x h1 _
    simp only [Heap.put]
    rw [upd_ne _ _ h1]

/-- What writing the node pointer back does to the heap. -/
theorem write_inv {w w' : Walk} {p : Ptr} (he : w.write p = .ok w') :
    w'.heap.next = w.heap.next ∧ w'.slot = w.slot ∧
      (w.slot = .root → w'.heap = w.heap) ∧
      ∀ b d, w.slot = .cell b d →
        (∃ n n', w.heap.node b = some n ∧ w'.heap.node b = some n' ∧ n'.len = n.len ∧ n'.cap = n.cap) ∧
        ∀ x, x ≠ b → w'.heap.node x = w.heap.node x := by
  obtain ⟨h, r, s⟩ := w
  cases s with
  | root =>
    cases he
    exact ⟨rfl, rfl, (fun _ => rfl), (fun b d e => by cases e)⟩
  | cell b d =>
    simp only [Walk.write] at he
    obtain ⟨n, e1, he⟩ := bind_inv he
    have hn := unwrapU_inv e1
    split at he
    · cases he
    obtain ⟨cells, -, he⟩ := bind_inv he
    cases he
    refine ⟨rfl, rfl, (fun e => by cases e), ?_⟩
    intro b' d' e
    cases e
    refine ⟨⟨n, { n with cells := cells }, hn, by simp only [Heap.put, upd_same], rfl, rfl⟩, ?_⟩
    intro x hx
    simp only [Heap.put]
    rw [upd_ne _ _ hx]

/-- No node has more than twice the cells it uses. -/
def Tight (h : Heap) : Prop := ∀ a n, h.node a = some n → n.cap ≤ 2 * n.len

theorem Tight.nodeInsert {h h' : Heap} {k : Kind} {a i d a' : Nat} {v : Cell} (T : Tight h)
    (he : nodeInsert h k (.heap a) i v = .ok (h', d, a')) (ha : a ≠ h.next) : Tight h' := by
  obtain ⟨n, n', e1, e2, e3, e4, e5⟩ := nodeInsert_inv he
  have := T a n e1
  intro x m hm
  by_cases hx : x = a'
  · subst hx
    rw [e2] at hm; cases hm
    rcases e4 with ⟨_, _, _, g⟩ | ⟨g1, _, _, g, _⟩ <;> omega
  · by_cases hx' : x = a
    · subst hx'
      rcases e4 with ⟨_, g, _⟩ | ⟨_, _, _, _, g⟩
      · exact absurd g.symm hx
      · rw [g ha] at hm; cases hm
    · rw [e5 x hx' hx] at hm
      exact T x m hm

theorem Tight.write {w w' : Walk} {p : Ptr} (T : Tight w.heap) (he : w.write p = .ok w') :
    Tight w'.heap := by
  obtain ⟨-, -, h1, h2⟩ := write_inv he
  cases hs : w.slot with
  | root => rw [h1 hs]; exact T
  | cell b d =>
    obtain ⟨⟨n, n', g1, g2, g3, g4⟩, g5⟩ := h2 b d hs
    intro x m hm
    by_cases hx : x = b
    · subst hx
      rw [g2] at hm; cases hm
      have := T _ _ g1
      omega
    · rw [g5 x hx] at hm; exact T x m hm

/-! ## One level of the descent -/

variable {D : Nat} {loc K : List Nat → Option Nat}

/-- The slot's block is the parent: not the node itself, and below `next`. -/
theorem slot_parent {w : Walk} (H : TInv D w.heap w.root loc K) {p : List Nat} {a : Nat}
    (ha : loc p = some a) (hs : SlotAt loc (cellsOf D loc K) w.slot p) {b d : Nat}
    (e : w.slot = .cell b d) : b ≠ a ∧ b < w.heap.next := by
  rw [e] at hs
  obtain ⟨q, j, rfl, hb, -⟩ := hs
  refine ⟨?_, H.rep.lt_next hb⟩
  intro e'
  subst e'
  exact append_ne_self _ _ (H.rep.inj _ _ _ ha hb)

/-- A node is created at this level. -/
theorem insertStep_new {w w' : Walk} (H : TInv D w.heap w.root loc K)
    {P : List Nat} (hP : ValidPath 64 P) {N a : Nat} (hN : N + 2 ≤ D) (hPD : P.length = D)
    (ha : loc (P.take N) = some a)
    (hs : SlotAt loc (cellsOf D loc K) w.slot (P.take N))
    (hb : loc (P.take (N + 1)) = none) {brk : Bool} (he : insertStep D P w N = .ok (w', brk)) :
    ∃ n g a' d, w.heap.node a = some n ∧ (n.len ≠ n.cap → g = 0) ∧ g ≤ 1 ∧
      w'.heap.next = w.heap.next + 1 + g ∧
      w'.slot = .cell a' d ∧ (a' = a ∨ w.heap.next < a') ∧
      (∀ x, x < w.heap.next → x ≠ a → (∀ b d, w.slot = .cell b d → x ≠ b) →
        w'.heap.node x = w.heap.node x) ∧
      (∃ m, w'.heap.node w.heap.next = some m ∧ m.len = 1 ∧ m.cap = 2) ∧
      (Tight w.heap → Tight w'.heap) := by
  have hlt : N < P.length := by omega
  have hget : P[N]? = some P[N] := List.getElem?_eq_getElem hlt
  have htake := take_succ_of_getElem? hget
  have hi64 : P[N] < 64 := hP _ (List.getElem_mem _)
  have hpl : (P.take N).length = N := by simp; omega
  obtain ⟨n, hd, -, hn, -, hrep⟩ := H.rep.deref ha
  have hread := read_slot H ha hs
  have hc := hrep.contains hi64
  rw [cellsOf_branch (by omega), ← htake, hb] at hc
  simp only [Option.map_none, Option.isSome_none] at hc
  have hanext := H.rep.lt_next ha
  unfold insertStep at he
  simp only [getP_some hget, bind_ok, hread, hd, hc, Bool.false_eq_true, if_false] at he
  have hnew : ∃ h1 c k e, nodeNew w.heap k defaultCap e = .ok (h1, c) ∧
      (do
        let (h, d, a) ← nodeInsert h1 .branch (.heap a) P[N] (.ptr (.heap c))
        let w ← { w with heap := h }.write (.heap a)
        return ({ w with slot := .cell a d }, false) : R (Walk × Bool)) = .ok (w', brk) := by
    by_cases hND : N = D - 2
    · rw [if_pos hND] at he
      obtain ⟨⟨h1, c⟩, e1, he⟩ := bind_inv he
      exact ⟨h1, c, _, _, e1, he⟩
    · rw [if_neg hND] at he
      obtain ⟨e, -, he⟩ := bind_inv he
      obtain ⟨⟨h1, c⟩, e1, he⟩ := bind_inv he
      exact ⟨h1, c, _, _, e1, he⟩
  obtain ⟨h1, c, k, e, e1, he⟩ := hnew
  obtain ⟨rfl, n1, ⟨m, m1, m2, m3, m4⟩, n3⟩ := nodeNew_inv e1
  obtain ⟨⟨h2, d, a'⟩, e2, he⟩ := bind_inv he
  simp only at he
  obtain ⟨w2, e3, he⟩ := bind_inv he
  cases he
  obtain ⟨i1, i2, i3, i4, i5, i6, i7⟩ := nodeInsert_inv e2
  rw [n3 a (by omega), hn] at i3
  cases i3
  obtain ⟨w1, w2', w3, w4⟩ := write_inv e3
  simp only at w1 w2' w3 w4
  have hpar : ∀ b d, w.slot = .cell b d → b ≠ a ∧ b < w.heap.next :=
    fun b d e => slot_parent H ha hs e
  have hkeep : ∀ x, (∀ b d, w.slot = .cell b d → x ≠ b) → w2.heap.node x = h2.node x := by
    intro x hx
    cases es : w.slot with
    | root => rw [w3 es]
    | cell b d => exact (w4 b d es).2 x (hx b d es)
  have ha' : a' = a ∨ a' = w.heap.next + 1 := by
    rcases i6 with ⟨_, g, _⟩ | ⟨_, g, _⟩
    · exact .inl g
    · exact .inr (by omega)
  refine ⟨n, h2.next - h1.next, a', d, hn, ?_, ?_, ?_, rfl, ?_, ?_, ?_, ?_⟩
  · intro hf
    rcases i6 with ⟨_, _, g, _⟩ | ⟨g, _⟩
    · omega
    · exact absurd g hf
  · rcases i6 with ⟨_, _, g, _⟩ | ⟨_, _, g, _⟩ <;> omega
  · show w2.heap.next = _
    rw [w1]
    rcases i6 with ⟨_, _, g, _⟩ | ⟨_, _, g, _⟩ <;> omega
  · rcases ha' with g | g
    · exact .inl g
    · exact .inr (by omega)
  · intro x hx hxa hxs
    show w2.heap.node x = _
    rw [hkeep x hxs, i7 x hxa (by omega), n3 x (by omega)]
  · refine ⟨m, ?_, m3, m4⟩
    show w2.heap.node _ = _
    rw [hkeep _ (fun b d e => by have := hpar b d e; omega), i7 _ (by omega) (by omega), m1]
  · intro T
    show Tight w2.heap
    have T1 : Tight h1 := by
      intro x y hy
      by_cases hx : x = w.heap.next
      · subst hx
        rw [m1] at hy; cases hy
        rw [m3, m4]; decide
      · rw [n3 x hx] at hy; exact T x y hy
    have T2 : Tight h2 := T1.nodeInsert e2 (by omega)
    exact Tight.write (w := { w with heap := h2 }) T2 e3

/-! ## The descent -/

/-- How many of the nodes on the path `P`, levels 1 to `m`, do not exist. -/
def missing (loc : List Nat → Option Nat) (P : List Nat) (m : Nat) : Nat :=
  ((List.range m).filter fun k => (loc (P.take (k + 1))).isNone).length

theorem missing_succ (loc : List Nat → Option Nat) (P : List Nat) (m : Nat) :
    missing loc P (m + 1) = missing loc P m + if (loc (P.take (m + 1))).isNone then 1 else 0 := by
  unfold missing
  rw [List.range_succ, List.filter_append, List.length_append]
  congr 1
  by_cases h : (loc (P.take (m + 1))).isNone = true <;> simp [h]

/-- What the descent has cost so far: nothing, or some nodes are new. `b` is the node reached. -/
def Spent (h0 : Heap) (w : Walk) (b miss : Nat) : Prop :=
  (w.heap = h0 ∧ miss = 0) ∨
  ∃ (as : List Nat) (g : Nat), as.length ≤ 2 ∧ g ≤ 1 ∧ 1 ≤ miss ∧ w.heap.next = h0.next + miss + g ∧
    (∀ x, x < h0.next → x ∉ as → w.heap.node x = h0.node x) ∧ h0.next ≤ b ∧
    (∃ n, w.heap.node b = some n ∧ n.len = 1 ∧ n.cap = 2) ∧
    ∃ b' d', w.slot = .cell b' d' ∧ (b' ∈ as ∨ h0.next ≤ b')

theorem take_ne_take {P : List Nat} {j k : Nat} (h : j < k) (hk : k ≤ P.length) :
    P.take j ≠ P.take k := by
  intro e
  have := congrArg List.length e
  simp at this; omega

theorem walk_cost {h0 : Heap} {root0 : Ptr} (H0 : TInv D h0 root0 loc K) (hD : D ≤ 9)
    {P : List Nat} (hP : ValidPath 64 P) (hPD : P.length = D) : ∀ m, m + 1 ≤ D →
    ∃ w loc' b, visitList (insertStep D P) (List.range m) ⟨h0, root0, .root⟩ = .ok (w, false) ∧
      TInv D w.heap w.root loc' K ∧ loc' (P.take m) = some b ∧
      SlotAt loc' (cellsOf D loc' K) w.slot (P.take m) ∧
      (∀ r, (∀ k, 1 ≤ k → k ≤ m → r ≠ P.take k) → (loc' r).isSome = (loc r).isSome) ∧
      Spent h0 w b (missing loc P m) ∧ (Tight h0 → Tight w.heap) := by
  intro m
  induction m with
  | zero =>
    intro _
    obtain ⟨a, hr, hroot⟩ := H0.root
    exact ⟨_, loc, a, rfl, H0, by simpa using hr, by simp [SlotAt], fun _ _ => rfl,
      Or.inl ⟨rfl, rfl⟩, id⟩
  | succ m ih =>
    intro hm
    obtain ⟨w, loc1, a, e1, H1, ha, hs, hl, hS, hT⟩ := ih (by omega)
    obtain ⟨w', loc2, b, e2, H2, hb, hs2, hl2, hsome, hnone⟩ :=
      insertStep_spec H1 hD hP (by omega) hPD ha hs
    have hsame : (loc1 (P.take (m + 1))).isSome = (loc (P.take (m + 1))).isSome :=
      hl _ fun k _ hk => (take_ne_take (by omega) (by omega)).symm
    refine ⟨w', loc2, b, ?_, H2, hb, hs2, ?_, ?_, ?_⟩
    · rw [List.range_succ, visitList_append, e1]
      simp only [bind_ok, Bool.false_eq_true, if_false, visitList, e2, pure_eq_ok]
    · intro r hr
      rw [hl2 r (hr (m + 1) (by omega) (by omega)), hl r fun k g1 g2 => hr k g1 (by omega)]
    · rw [missing_succ]
      cases hc : loc1 (P.take (m + 1)) with
      | some c =>
        rw [hc] at hsame
        have : (loc (P.take (m + 1))).isNone = false := by
          rw [← Option.not_isSome, ← hsame]; rfl
        rw [this]
        simp only [Bool.false_eq_true, if_false, Nat.add_zero]
        obtain ⟨g1, -⟩ := hsome c hc
        rcases hS with ⟨s1, s2⟩ | ⟨as, g, _, _, _, _, _, _, ⟨n, n1, n2, n3⟩, _⟩
        · exact Or.inl ⟨by rw [g1, s1], s2⟩
        · exfalso
          obtain ⟨n', -, -, hn', -, hrep⟩ := H1.rep.deref ha
          rw [n1] at hn'; cases hn'
          have := hrep.len_one.1 n2 P[m] (hP _ (List.getElem_mem _))
          rw [cellsOf_branch (by simp; omega),
            ← take_succ_of_getElem? (List.getElem?_eq_getElem (by omega)), hc] at this
          simp at this
      | none =>
        rw [hc] at hsame
        have : (loc (P.take (m + 1))).isNone = true := by
          rw [← Option.not_isSome, ← hsame]; rfl
        rw [this]
        simp only [if_true]
        obtain ⟨n, g, a', d, n1, n2, n3, n4, n5, n6, n7, n8, -⟩ :=
          insertStep_new H1 hP (by omega) hPD ha hs hc e2
        have hb' := hnone hc
        subst hb'
        obtain ⟨q, q1, q2, q3⟩ := n8
        rcases hS with ⟨s1, s2⟩ | ⟨as, g', s1, s2, s3, s4, s5, s6, ⟨n', t1, t2, t3⟩, b', d', u1, u2⟩
        · rw [s1] at n4 n6 n7 q1
          rw [s2]
          right
          rcases hslot : w.slot with _ | ⟨b', d'⟩
          · refine ⟨[a], g, by simp, n3, by omega, by omega, ?_, by rw [s1]; exact Nat.le_refl _,
              ⟨q, by rw [s1]; exact q1, q2, q3⟩, a', d, n5, ?_⟩
            · intro x hx hxa
              exact n7 x hx (by simpa using hxa) (by rw [hslot]; intro _ _ e; cases e)
            · rcases n6 with g | g
              · exact .inl (by simp [g])
              · exact .inr (by omega)
          · refine ⟨[a, b'], g, by simp, n3, by omega, by omega, ?_, by rw [s1]; exact Nat.le_refl _,
              ⟨q, by rw [s1]; exact q1, q2, q3⟩, a', d, n5, ?_⟩
            · intro x hx hxa
              simp only [List.mem_cons, List.not_mem_nil, or_false, not_or] at hxa
              exact n7 x hx hxa.1 (by rw [hslot]; intro _ _ e; cases e; exact hxa.2)
            · rcases n6 with g | g
              · exact .inl (by simp [g])
              · exact .inr (by omega)
        · rw [t1] at n1; cases n1
          have hg := n2 (by omega)
          subst hg
          refine Or.inr ⟨as, g', s1, s2, by omega, by omega, ?_, by omega, ⟨q, q1, q2, q3⟩, a', d, n5, ?_⟩
          · intro x hx hxa
            rw [n7 x (by omega) (by omega), s5 x hx hxa]
            intro b d e
            rw [u1] at e; cases e
            rcases u2 with u2 | u2
            · intro e; exact hxa (e ▸ u2)
            · omega
          · right
            rcases n6 with n6 | n6 <;> omega
    · intro T
      have T1 := hT T
      cases hc : loc1 (P.take (m + 1)) with
      | some c => rw [(hsome c hc).1]; exact T1
      | none =>
        obtain ⟨_, _, _, _, _, _, _, _, _, _, _, _, t⟩ :=
          insertStep_new H1 hP (by omega) hPD ha hs hc e2
        exact t T1

/-! ## `get_or_insert_impl` -/

variable {α : Type} {ex : List Nat → Prop} {t : DT α} {M : Nat → Option α}

/-- The cost of one insertion: nothing if the key is stored; otherwise one allocation per missing
node, and at most one reallocation; at most two existing blocks are written, moved or freed. -/
theorem DS.insert_cost (S : DS ex D t M loc K) (h1 : 1 ≤ D) (h9 : D ≤ 9) {k : Nat}
    (hk : k < 64 ^ D) {ins : Bool} {v : α} {out : InsOut α}
    (he : getOrInsertImpl D t k ins v = .ok out) :
    (∀ x, M k = some x → out.tree.heap = t.heap) ∧
    (M k = none → ∃ (as : List Nat) (g : Nat), as.length ≤ 2 ∧ g ≤ 1 ∧
      out.tree.heap.next = t.heap.next + missing loc (path 64 D k) (D - 1) + g ∧
      ∀ x, x < t.heap.next → x ∉ as → out.tree.heap.node x = t.heap.node x) ∧
    (Tight t.heap → Tight out.tree.heap) := by
  have hPv := validPath_path hk
  have hPl := path_length 64 D k
  have hden := S.den_path hPv hPl
  rw [unpath_path 64 D k hk] at hden
  have hlev : levelIndices 1 D k = .ok (path 64 D k) := levelIndices_ok h1 h9
  generalize path 64 D k = P at *
  obtain ⟨w, loc', b, e1, T1, hb, hs, hl, hS, hT⟩ :=
    walk_cost S.tree h9 hPv hPl (D - 1) (by omega)
  have ew : insertWalk D t P = .ok w := by
    unfold insertWalk
    rw [constLoop_eq _ _ _ _ (by omega) (by omega)]
    have : rangeFromTo 0 (D - 1) = List.range (D - 1) := by
      unfold rangeFromTo; simp
    rw [this, e1]; rfl
  rcases eq_nil_or_append P with rfl | ⟨p, i, rfl⟩
  · simp at hPl; omega
  have hpl : p.length + 1 = D := by simpa using hPl
  have htk : (p ++ [i]).take (D - 1) = p := by
    rw [List.take_append_of_le_length (by omega), List.take_of_length_le (by omega)]
  rw [htk] at hb hs
  have hread := read_slot T1 hb hs
  have hlast : (p ++ [i]).getLast? = some i := by simp
  obtain ⟨hpv, hi⟩ := ValidPath.of_append hPv
  obtain ⟨n, hd, -, hn, -, hrep⟩ := T1.rep.deref hb
  have hc := hrep.contains hi
  rw [cellsOf_term hpl] at hc
  have hmiss : ∀ y, M k = some y → w.heap = t.heap := by
    intro y hy
    rcases hS with ⟨s1, -⟩ | ⟨as, g, _, _, _, _, _, _, ⟨n', n1, n2, n3⟩, _⟩
    · exact s1
    · exfalso
      rw [hn] at n1; cases n1
      have := hrep.len_one.1 n2 i hi
      rw [cellsOf_term hpl] at this
      rw [hden] at hy
      cases e : K (p ++ [i]) with
      | none => rw [e] at hy; cases hy
      | some d => rw [e] at this; cases this
  unfold getOrInsertImpl at he
  simp only [hlev, bind_ok, ew, hread, hlast, unwrapU, hd, hc] at he
  cases hK : K (p ++ [i]) with
  | some d =>
    have hMs : ∃ y, M k = some y := by
      obtain ⟨-, v, g⟩ := S.data.value hK
      exact ⟨v, by rw [hden, hK]; simp [g]⟩
    obtain ⟨y, hy⟩ := hMs
    have hw := hmiss y hy
    rw [hK] at he
    simp only [Option.map_some, Option.isSome_some, if_true] at he
    have hout : out.tree.heap = w.heap := by
      obtain ⟨cell, -, he⟩ := bind_inv he
      obtain ⟨j, -, he⟩ := bind_inv he
      cases ins with
      | true =>
        simp only [if_true] at he
        obtain ⟨o, -, he⟩ := bind_inv he
        obtain ⟨o', -, he⟩ := bind_inv he
        obtain ⟨o'', -, he⟩ := bind_inv he
        cases he; rfl
      | false =>
        simp only [Bool.false_eq_true, if_false] at he
        obtain ⟨o, -, he⟩ := bind_inv he
        obtain ⟨o', -, he⟩ := bind_inv he
        cases he; rfl
    rw [hout, hw]
    exact ⟨fun _ _ => rfl, (fun e => by rw [hy] at e; cases e), id⟩
  | none =>
    have hM : M k = none := by rw [hden, hK]; rfl
    rw [hK] at he
    simp only [Option.map_none, Option.isSome_none, Bool.false_eq_true, if_false] at he
    obtain ⟨⟨h2, d, a'⟩, e2, he⟩ := bind_inv he
    simp only at he
    obtain ⟨w2, e3, he⟩ := bind_inv he
    cases he
    simp only
    have hbn := T1.rep.lt_next hb
    refine ⟨(fun x e => by rw [hM] at e; cases e), fun _ => ?_, ?_⟩
    · obtain ⟨i1, i2, i3, i4, i5, i6, i7⟩ := nodeInsert_inv e2
      rw [hn] at i3; cases i3
      obtain ⟨w1, w2', w3, w4⟩ := write_inv e3
      simp only at w1 w2' w3 w4
      have hkeep : ∀ x, (∀ b d, w.slot = .cell b d → x ≠ b) → w2.heap.node x = h2.node x := by
        intro x hx
        cases es : w.slot with
        | root => rw [w3 es]
        | cell b d => exact (w4 b d es).2 x (hx b d es)
      rw [w1]
      rcases hS with ⟨s1, s2⟩ | ⟨as, g, s1, s2, s3, s4, s5, s6, ⟨n', t1, t2, t3⟩, b', d', u1, u2⟩
      · rw [s2]
        rw [s1] at i6 i7 hbn
        rcases hslot : w.slot with _ | ⟨b', d'⟩
        · refine ⟨[b], h2.next - t.heap.next, by simp, ?_, ?_, ?_⟩
          · rcases i6 with ⟨_, _, g, _⟩ | ⟨_, _, g, _⟩ <;> omega
          · rcases i6 with ⟨_, _, g, _⟩ | ⟨_, _, g, _⟩ <;> omega
          · intro x hx hxa
            rw [hkeep x (by rw [hslot]; intro _ _ e; cases e)]
            have hxb : x ≠ b := by simpa using hxa
            exact i7 x hxb (by rcases i6 with ⟨_, g, _⟩ | ⟨_, g, _⟩ <;> omega)
        · refine ⟨[b, b'], h2.next - t.heap.next, by simp, ?_, ?_, ?_⟩
          · rcases i6 with ⟨_, _, g, _⟩ | ⟨_, _, g, _⟩ <;> omega
          · rcases i6 with ⟨_, _, g, _⟩ | ⟨_, _, g, _⟩ <;> omega
          · intro x hx hxa
            simp only [List.mem_cons, List.not_mem_nil, or_false, not_or] at hxa
            rw [hkeep x (by rw [hslot]; intro _ _ e; cases e; exact hxa.2)]
            exact i7 x hxa.1 (by rcases i6 with ⟨_, g, _⟩ | ⟨_, g, _⟩ <;> omega)
      · rw [hn] at t1; cases t1
        refine ⟨as, g, s1, s2, ?_, ?_⟩
        · rcases i6 with ⟨_, _, g, _⟩ | ⟨_, _, g, _⟩ <;> omega
        · intro x hx hxa
          rw [hkeep x, i7 x (by omega) (by rcases i6 with ⟨_, g, _⟩ | ⟨_, g, _⟩ <;> omega), s5 x hx hxa]
          intro b d e
          rw [u1] at e; cases e
          rcases u2 with u2 | u2
          · intro e; exact hxa (e ▸ u2)
          · omega
    · intro T
      have T2 : Tight h2 := (hT T).nodeInsert e2 (by omega)
      exact Tight.write (w := { w with heap := h2 }) T2 e3

/-! ## `remove` -/

/-- `h'` is `h` after freeing or writing blocks of `as` only, without allocating. -/
def Writes (h h' : Heap) (as : List Nat) : Prop :=
  h'.next = h.next ∧ ∀ x, x ∉ as → h'.node x = h.node x

theorem Writes.refl (h : Heap) (as : List Nat) : Writes h h as := ⟨rfl, fun _ _ => rfl⟩

theorem Writes.trans {h h' h'' : Heap} {as : List Nat} (a : Writes h h' as) (b : Writes h' h'' as) :
    Writes h h'' as :=
  ⟨b.1.trans a.1, fun x hx => (b.2 x hx).trans (a.2 x hx)⟩

theorem Writes.mono {h h' : Heap} {as bs : List Nat} (a : Writes h h' as) (hs : ∀ x ∈ as, x ∈ bs) :
    Writes h h' bs := ⟨a.1, fun x hx => a.2 x fun hm => hx (hs x hm)⟩

/-- The address of a heap pointer. -/
def Ptr.addr : Ptr → Nat
  | .heap a => a
  | .stat _ => 0

theorem derefMut_inv {h : Heap} {p : Ptr} {a : Nat} {n : Node} (he : derefMut h p = .ok (a, n)) :
    a = p.addr := by
  cases p with
  | heap b =>
    obtain ⟨m, -, he⟩ := bind_inv he
    cases he; rfl
  | stat i => cases he

theorem put_writes {h : Heap} {a : Nat} {n : Node} {as : List Nat} (ha : a ∈ as) :
    Writes h (h.put a n) as := by
  refine ⟨rfl, fun x hx => ?_⟩
  simp only [Heap.put]
  rw [upd_ne]
  intro e; exact hx (e ▸ ha)

theorem nodeRemove_writes {h h' : Heap} {k : Kind} {p : Ptr} {i : Nat}
    (he : nodeRemove h k p i = .ok h') : Writes h h' [p.addr] := by
  unfold nodeRemove at he
  obtain ⟨⟨a, n⟩, e1, he⟩ := bind_inv he
  have := derefMut_inv e1
  simp only at he
  split at he
  · cases he
  obtain ⟨d, -, he⟩ := bind_inv he
  obtain ⟨⟨_, mask⟩, -, he⟩ := bind_inv he
  simp only at he
  by_cases hd : d + 1 ≤ n.len
  case neg => simp only [if_neg hd] at he; cases he
  simp only [if_pos hd, bind_ok] at he
  obtain ⟨cells, -, he⟩ := bind_inv he
  cases he
  exact put_writes (by simp [this])

theorem dropNode_writes {h h' : Heap} {k : Kind} {p : Ptr}
    (he : dropNode h k p = .ok h') : Writes h h' [p.addr] := by
  unfold dropNode at he
  obtain ⟨⟨a, n⟩, e1, he⟩ := bind_inv he
  have := derefMut_inv e1
  simp only [Heap.dealloc] at he
  obtain ⟨m, -, he⟩ := bind_inv he
  split at he
  · cases he
    refine ⟨rfl, fun x hx => ?_⟩
    simp only
    rw [upd_ne]
    intro e; exact hx (by simp [e, this])
  · cases he

theorem setChild_writes {h h' : Heap} {k : Kind} {p : Ptr} {i : Nat} {v : Cell}
    (he : setChild h k p i v = .ok h') : Writes h h' [p.addr] := by
  unfold setChild at he
  obtain ⟨⟨a, n⟩, e1, he⟩ := bind_inv he
  have := derefMut_inv e1
  simp only at he
  split at he
  · cases he
  obtain ⟨d, -, he⟩ := bind_inv he
  obtain ⟨cells, -, he⟩ := bind_inv he
  cases he
  exact put_writes (by simp [this])

theorem climbStep_writes {root : Ptr} {branch : List Ptr} {indices : List Nat} {h h' : Heap}
    {N : Nat} {b : Bool} (he : climbStep root branch indices h N = .ok (h', b)) :
    Writes h h' ((root :: branch).map Ptr.addr) := by
  have key : ∀ node, node ∈ root :: branch → (do
      let i ← getP indices N
      let h ← nodeRemove h .branch node i
      let n ← deref h node
      if n.len ≠ 1 then return (h, true)
      else if N ≠ 0 then
        let h ← dropNode h .branch node
        return (h, false)
      else return (h, false) : R (Heap × Bool)) = .ok (h', b) →
      Writes h h' ((root :: branch).map Ptr.addr) := by
    intro node hm he
    have hsub : ∀ x ∈ [node.addr], x ∈ (root :: branch).map Ptr.addr := by
      intro x hx
      rw [List.mem_singleton] at hx
      subst hx
      exact List.mem_map_of_mem hm
    obtain ⟨i, -, he⟩ := bind_inv he
    obtain ⟨h1, e1, he⟩ := bind_inv he
    obtain ⟨n, -, he⟩ := bind_inv he
    have W := (nodeRemove_writes e1).mono hsub
    split at he
    · cases he; exact W
    · split at he
      · obtain ⟨h2, e2, he⟩ := bind_inv he
        cases he
        exact W.trans ((dropNode_writes e2).mono hsub)
      · cases he; exact W
  unfold climbStep at he
  by_cases h0 : N = 0
  · simp only [if_pos h0, bind_ok] at he
    exact key root (by simp) he
  · simp only [if_neg h0] at he
    obtain ⟨node, e1, he⟩ := bind_inv he
    refine key node ?_ he
    unfold getP at e1
    split at e1
    · cases e1
      rename_i hg
      exact List.mem_cons_of_mem _ (List.mem_of_getElem? hg)
    · cases e1

theorem climb_writes {root : Ptr} {branch : List Ptr} {indices : List Nat} :
    ∀ (l : List Nat) (h h' : Heap) (b : Bool),
      visitList (climbStep root branch indices) l h = .ok (h', b) →
      Writes h h' ((root :: branch).map Ptr.addr) := by
  intro l
  induction l with
  | nil => intro h h' b he; cases he; exact .refl _ _
  | cons n l ih =>
    intro h h' b he
    simp only [visitList] at he
    obtain ⟨⟨h1, b1⟩, e1, he⟩ := bind_inv he
    have W := climbStep_writes e1
    cases b1 with
    | true => cases he; exact W
    | false => exact W.trans (ih _ _ _ he)

theorem branchLoop_length {h : Heap} {indices : List Nat} : ∀ (l : List Nat) (p : Ptr) (qs : List Ptr),
    branchLoop h indices l p = .ok qs → qs.length = l.length := by
  intro l
  induction l with
  | nil => intro p qs he; cases he; rfl
  | cons n l ih =>
    intro p qs he
    simp only [branchLoop] at he
    obtain ⟨_, -, he⟩ := bind_inv he
    obtain ⟨_, -, he⟩ := bind_inv he
    obtain ⟨_, -, he⟩ := bind_inv he
    obtain ⟨_, e, he⟩ := bind_inv he
    cases he
    simp [ih _ _ e]

/-- `remove` allocates nothing and touches at most `D + 1` blocks. -/
theorem remove_cost {t t' : DT α} {k : Nat} {o : Option α} (h9 : D ≤ 9) (h1 : 1 ≤ D)
    (he : remove D t k = .ok (t', o)) :
    ∃ as : List Nat, as.length ≤ D + 1 ∧ Writes t.heap t'.heap as := by
  unfold remove at he
  obtain ⟨index, -, he⟩ := bind_inv he
  obtain ⟨indices, -, he⟩ := bind_inv he
  obtain ⟨branch, eb, he⟩ := bind_inv he
  obtain ⟨terminal, et, he⟩ := bind_inv he
  obtain ⟨inner, -, he⟩ := bind_inv he
  obtain ⟨cell, -, he⟩ := bind_inv he
  obtain ⟨dataIndex, -, he⟩ := bind_inv he
  obtain ⟨key, -, he⟩ := bind_inv he
  have hlen := branchLoop_length _ _ _ eb
  rw [List.length_range] at hlen
  have hterm : terminal ∈ branch := List.mem_of_getLast? (unwrapU_inv et)
  by_cases hk : key = index
  case neg =>
    simp only [if_neg hk] at he
    cases he
    exact ⟨[], by simp, .refl _ _⟩
  simp only [if_pos hk] at he
  obtain ⟨h2, e2, he⟩ := bind_inv he
  obtain ⟨t3, e3, he⟩ := bind_inv he
  obtain ⟨⟨v, data⟩, -, he⟩ := bind_inv he
  cases he
  simp only
  have hsub : ∀ x ∈ [terminal.addr], x ∈ (t.root :: branch).map Ptr.addr := by
    intro x hx
    rw [List.mem_singleton] at hx
    subst hx
    exact List.mem_map_of_mem (List.mem_cons_of_mem _ hterm)
  have W1 : Writes t.heap h2 ((t.root :: branch).map Ptr.addr) := by
    unfold removeCell at e2
    obtain ⟨h4, e4, e2⟩ := bind_inv e2
    obtain ⟨n, -, e2⟩ := bind_inv e2
    have W := (nodeRemove_writes e4).mono hsub
    split at e2
    · obtain ⟨h5, e5, e2⟩ := bind_inv e2
      obtain ⟨⟨h6, b⟩, e6, e2⟩ := bind_inv e2
      cases e2
      rw [constLoopRev_eq _ _ _ _ (by omega) (by omega)] at e6
      exact (W.trans ((dropNode_writes e5).mono hsub)).trans (climb_writes _ _ _ _ e6)
    · cases e2; exact W
  have W2 : ∃ a, Writes h2 t3.heap [a] := by
    unfold removeKey at e3
    obtain ⟨lk, -, e3⟩ := bind_inv e3
    simp only at e3
    split at e3
    · obtain ⟨ks, -, e3⟩ := bind_inv e3
      obtain ⟨ix, -, e3⟩ := bind_inv e3
      obtain ⟨⟨nd, inn⟩, -, e3⟩ := bind_inv e3
      obtain ⟨h7, e7, e3⟩ := bind_inv e3
      cases e3
      exact ⟨_, setChild_writes e7⟩
    · cases e3
      exact ⟨0, .refl _ _⟩
  obtain ⟨a, W2⟩ := W2
  refine ⟨a :: (t.root :: branch).map Ptr.addr, ?_, ?_⟩
  · simp only [List.length_cons, List.length_map]; omega
  · exact (W1.mono fun x hx => List.mem_cons_of_mem _ hx).trans (W2.mono (by simp))

end Hibit.Dense
