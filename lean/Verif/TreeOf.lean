import Verif.Content
/-!
# Trees with a given content

`IsTree I s M`: the tree value `s` of type `I` obeys the trait contract and its content is the
map `M` from indices to data. `IsTreeC` additionally allows checked cursor data access (needed to
nest the tree in a union).
-/
namespace Hibit

/-- The tree `s` obeys the contract of `HibitTree`/`HibitTreeCursor` and holds the map `M`. -/
def IsTree {S C δ : Type} (I : Impl S C δ) (s : S) (M : Nat → Option δ) : Prop :=
  ∃ T K, Lawful I s T K ∧ ∀ i, i < width I.N ^ I.D → T.content (path (width I.N) I.D i) = M i

/-- `IsTree`, and the cursor's checked `data` obeys the contract too. -/
def IsTreeC {S C δ : Type} (I : Impl S C δ) (s : S) (M : Nat → Option δ) : Prop :=
  ∃ T K, LawfulC I s T K ∧ ∀ i, i < width I.N ^ I.D → T.content (path (width I.N) I.D i) = M i

theorem IsTreeC.isTree {S C δ : Type} {I : Impl S C δ} {s : S} {M : Nat → Option δ}
    (h : IsTreeC I s M) : IsTree I s M := by
  obtain ⟨T, K, L, e⟩ := h
  exact ⟨T, K, L.toLawful, e⟩

/-- The `(index, value)` pairs of the map `M` below `n` in ascending index order. -/
def listing {δ : Type} (n : Nat) (M : Nat → Option δ) : List (Nat × δ) :=
  (List.range n).filterMap (fun i => (M i).map (fun d => (i, d)))

/-- A call of `select_level_node` (`checked`) or `select_level_node_unchecked`. -/
structure Move where
  checked : Bool
  level : Nat
  index : Nat

/-- A sequence of select calls on one cursor; the returned masks and the final cursor. -/
def runMoves {S C δ : Type} (I : Impl S C δ) (s : S) : C → List Move → R (List Mask × C)
  | c, [] => .ok ([], c)
  | c, m :: ms => do
    let (mask, c) ← if m.checked then I.select c s m.level m.index
                    else I.selectU c s m.level m.index
    let (masks, c) ← runMoves I s c ms
    return (mask :: masks, c)

/-- The path a cursor at `pos` points to after a move (`pos = none`: nothing selected yet). -/
def Move.path (pos : Option (List Nat)) (m : Move) : List Nat :=
  match m.level with
  | 0 => []
  | n + 1 => (pos.getD []).take n ++ [m.index]

/-- The paths selected by a sequence of moves. -/
def movePaths : Option (List Nat) → List Move → List (List Nat)
  | _, [] => []
  | pos, m :: ms => m.path pos :: movePaths (some (m.path pos)) ms

/-- The trait's conditions on a move, for mask function `B`: the levels above have been selected,
the index is in range, and an unchecked move goes to a node marked in its parent. -/
def Move.Legal (W D : Nat) (B : List Nat → Nat → Bool) (pos : Option (List Nat)) (m : Move) : Prop :=
  m.index < W ∧ (m.level = 0 → m.index = 0) ∧ ∀ n, m.level = n + 1 → n + 2 ≤ D ∧
    ∃ p, pos = some p ∧ n ≤ p.length ∧ (m.checked = false → B (p.take n) m.index = true)

/-- All moves of the sequence are legal. -/
def LegalMoves (W D : Nat) (B : List Nat → Nat → Bool) : Option (List Nat) → List Move → Prop
  | _, [] => True
  | pos, m :: ms => m.Legal W D B pos ∧ LegalMoves W D B (some (m.path pos)) ms

/-- What the node masks of a tree with content `M` may be. -/
structure MaskSpec {δ : Type} (W D : Nat) (exact : Bool) (M : Nat → Option δ)
    (B : List Nat → Nat → Bool) : Prop where
  /-- a terminal node's bits are exactly the present indices -/
  terminal : ∀ p j, ValidPath W p → p.length + 1 = D → j < W →
    B p j = (M (unpath W (p ++ [j]))).isSome
  /-- a bit is set if something is stored below -/
  below : ∀ p j, p.length < D → Below W D M (p ++ [j]) → B p j = true
  /-- below an unset bit everything is empty -/
  absent : ∀ p i q j, ValidPath W (p ++ i :: q) → (p ++ i :: q).length < D →
    B p i = false → B (p ++ i :: q) j = false
  /-- in an exact tree a bit is set only if something is stored below -/
  exact : exact = true → ∀ p j, ValidPath W p → p.length < D → B p j = true → Below W D M (p ++ [j])

section
variable {S C δ : Type} {I : Impl S C δ} {s : S} {T : TreeSpec δ} {K : CursorRel C}
  {M : Nat → Option δ}

theorem content_of (hc : ∀ i, i < width I.N ^ I.D → T.content (path (width I.N) I.D i) = M i)
    {p : List Nat} (hp : ValidPath (width I.N) p) (hl : p.length = I.D) :
    T.content p = M (unpath (width I.N) p) := by
  have h1 := unpath_lt hp
  have h2 := path_unpath hp
  rw [hl] at h1 h2
  have := hc _ h1
  rw [h2] at this
  exact this

theorem entries_eq (hc : ∀ i, i < width I.N ^ I.D → T.content (path (width I.N) I.D i) = M i) :
    entries (width I.N) I.D T.content = listing (width I.N ^ I.D) M := by
  unfold entries listing
  have : ∀ l : List Nat, (∀ x ∈ l, x < width I.N ^ I.D) →
      l.filterMap (fun i => (T.content (path (width I.N) I.D i)).map (fun d => (i, d))) =
      l.filterMap (fun i => (M i).map (fun d => (i, d))) := by
    intro l
    induction l with
    | nil => intro _; rfl
    | cons a l ih =>
      intro h
      simp only [List.filterMap_cons, hc a (h a (by simp)), ih (fun x hx => h x (by simp [hx]))]
  exact this _ (fun x hx => List.mem_range.1 hx)

/-- The denotation's masks satisfy `MaskSpec`. -/
theorem maskSpec (wf : SpecWf (width I.N) I.D I.exact T)
    (hc : ∀ i, i < width I.N ^ I.D → T.content (path (width I.N) I.D i) = M i) :
    MaskSpec (width I.N) I.D I.exact M T.bits where
  terminal p j hp hl hj := by
    rw [wf.terminal p j hp hl hj, content_of hc (ValidPath.append hp hj) (by simpa using hl)]
  below := by
    -- induction on the number of levels below
    have key : ∀ (k : Nat) p j, p.length + 1 + k = I.D → Below (width I.N) I.D M (p ++ [j]) →
        T.bits p j = true := by
      intro k
      induction k with
      | zero =>
        intro p j hk ⟨q, h1, h2, h3⟩
        have : q = [] := List.length_eq_zero_iff.1 (by simp at h2; omega)
        subst this
        simp only [List.append_nil] at h1 h2 h3
        obtain ⟨hp, hj⟩ := ValidPath.of_append h1
        rw [wf.terminal p j hp (by omega) hj, content_of hc h1 h2]
        exact h3
      | succ k ih =>
        intro p j hk ⟨q, h1, h2, h3⟩
        cases q with
        | nil => simp at h2; omega
        | cons x q =>
          have hpj : ValidPath (width I.N) (p ++ [j]) := fun y hy => h1 y (by
            simp at hy ⊢; rcases hy with h | h <;> simp [h])
          obtain ⟨hp, hj⟩ := ValidPath.of_append hpj
          refine wf.upward p j x hp hj (by omega) (ih (p ++ [j]) x (by simp; omega) ?_)
          exact ⟨q, by simpa using h1, by simpa using h2, by simpa using h3⟩
    intro p j hp h
    exact key (I.D - (p.length + 1)) p j (by omega) h
  absent := by
    have key : ∀ (q : List Nat) p i j, ValidPath (width I.N) (p ++ i :: q) →
        (p ++ i :: q).length < I.D → T.bits p i = false → T.bits (p ++ i :: q) j = false := by
      intro q
      induction q with
      | nil =>
        intro p i j hv hl hb
        obtain ⟨hp, hi⟩ := ValidPath.of_append hv
        cases e : T.bits (p ++ [i]) j with
        | false => rfl
        | true =>
          rw [wf.upward p i j hp hi (by simp at hl; omega) e] at hb
          cases hb
      | cons x q ih =>
        intro p i j hv hl hb
        have hpi : ValidPath (width I.N) (p ++ [i]) := fun y hy => hv y (by
          simp at hy ⊢; rcases hy with h | h <;> simp [h])
        obtain ⟨hp, hi⟩ := ValidPath.of_append hpi
        have hb' : T.bits (p ++ [i]) x = false := by
          cases e : T.bits (p ++ [i]) x with
          | false => rfl
          | true =>
            rw [wf.upward p i x hp hi (by simp at hl; omega) e] at hb
            cases hb
        have := ih (p ++ [i]) x j (by simpa using hv) (by simpa using hl) hb'
        simpa using this
    intro p i q j
    exact key q p i j
  exact he := by
    have key : ∀ (k : Nat) p j, ValidPath (width I.N) p → p.length + 1 + k = I.D →
        T.bits p j = true → Below (width I.N) I.D M (p ++ [j]) := by
      intro k
      induction k with
      | zero =>
        intro p j hp hk hb
        have hj := wf.bits_lt p j hb
        have hpj := ValidPath.append hp hj
        rw [wf.terminal p j hp (by omega) hj, content_of hc hpj (by simp; omega)] at hb
        exact ⟨[], by simpa using hpj, by simp; omega, by simpa using hb⟩
      | succ k ih =>
        intro p j hp hk hb
        have hj := wf.bits_lt p j hb
        obtain ⟨x, hx⟩ := wf.exact_child he p j hp (by omega) hb
        obtain ⟨q, h1, h2, h3⟩ := ih (p ++ [j]) x (ValidPath.append hp hj) (by simp; omega) hx
        exact ⟨x :: q, by simpa using h1, by simpa using h2, by simpa using h3⟩
    intro p j hp hl hb
    exact key (I.D - (p.length + 1)) p j hp (by omega) hb

/-- The cursor invariant along a legal sequence of moves. -/
def CurAt (K : CursorRel C) (c : C) : Option (List Nat) → Prop
  | none => K.inv c
  | some p => K.pos c p

theorem CurAt.inv (L : Lawful I s T K) {c : C} {pos : Option (List Nat)} (h : CurAt K c pos) :
    K.inv c := by
  cases pos with
  | none => exact h
  | some p => exact L.pos_inv c p h

theorem move_spec (L : Lawful I s T K) {c : C} {pos : Option (List Nat)} (h : CurAt K c pos)
    (hv : ∀ p, pos = some p → ValidPath (width I.N) p) {m : Move}
    (hl : m.Legal (width I.N) I.D T.bits pos) :
    ∃ mask c', (if m.checked then I.select c s m.level m.index
                else I.selectU c s m.level m.index) = .ok (mask, c') ∧ mask.length = I.N ∧
      (∀ j, mask.bit j = T.bits (m.path pos) j) ∧ K.pos c' (m.path pos) ∧
      (m.checked = true → K.posC c' (m.path pos)) ∧ ValidPath (width I.N) (m.path pos) := by
  obtain ⟨hi, h00, hn⟩ := hl
  obtain ⟨ch, level, index⟩ := m
  simp only at hi h00 hn
  cases level with
  | zero =>
    have hnil : ValidPath (width I.N) [] := by intro x hx; simp at hx
    cases ch with
    | true =>
      obtain ⟨mask, c', e, h1, h2, h3⟩ := L.select_root c index (h.inv L) (h00 rfl)
      exact ⟨mask, c', by simpa using e, h1, h2, L.posC_pos _ _ h3, fun _ => h3, hnil⟩
    | false =>
      obtain ⟨mask, c', e, h1, h2, h3⟩ := L.selectU_root c index (h.inv L) (h00 rfl)
      exact ⟨mask, c', by simpa using e, h1, h2, h3, fun e => by simp at e, hnil⟩
  | succ n =>
    obtain ⟨hD, p, rfl, hnp, hb⟩ := hn n rfl
    have hp := hv p rfl
    have hpt : ValidPath (width I.N) (p.take n) := fun x hx => hp x (List.mem_of_mem_take hx)
    have htl : (p.take n).length = n := by simp [hnp]
    have hpos := L.pos_take c p n h
    have hpv := ValidPath.append hpt hi
    cases ch with
    | true =>
      obtain ⟨mask, c', e, h1, h2, h3⟩ := L.select_node c (p.take n) index hpos hpt hi (by omega)
      rw [htl] at e
      exact ⟨mask, c', by simpa using e, h1, h2, L.posC_pos _ _ h3, fun _ => h3, hpv⟩
    | false =>
      obtain ⟨mask, c', e, h1, h2, h3⟩ := L.selectU_node c (p.take n) index hpos hpt hi (by omega)
        (hb rfl)
      rw [htl] at e
      exact ⟨mask, c', by simpa using e, h1, h2, h3, fun e => by simp at e, hpv⟩

end

end Hibit
