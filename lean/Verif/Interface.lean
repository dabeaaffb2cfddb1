import Verif.Bits.Spec
import Verif.Index
/-!
# The tree and cursor interface, and its contract

Traits `HibitTree` (`src/hibit_tree.rs:141-218`) and `HibitTreeCursor`
(`src/hibit_tree.rs:284-321`).
-/
namespace Hibit

/-- An implementation of `HibitTree` with its cursor (hibit_tree.rs:141-218, 284-321):
`S` the tree, `Cur` its cursor type, `δ` its data. `Data` and `DataUnchecked` are one type;
the iterators returned by multi-trees are modelled by the list of items they yield.
A cursor method taking `&mut self` returns the new cursor; `src` is passed as in Rust. -/
structure Impl (S Cur δ : Type) where
  /-- number of 64-bit words of `LevelMask` -/
  N : Nat
  /-- `LevelCount::VALUE` -/
  D : Nat
  /-- `EXACT_HIERARCHY` -/
  exact : Bool
  /-- hibit_tree.rs:165 `data(index, level_indices)` -/
  data : S → Nat → List Nat → R (Option δ)
  /-- hibit_tree.rs:179 `data_unchecked(index, level_indices)` -/
  dataU : S → Nat → List Nat → R δ
  /-- hibit_tree.rs:290 `Cursor::new` -/
  new : S → R Cur
  /-- hibit_tree.rs:293 `select_level_node(src, level_n, level_index)` -/
  select : Cur → S → Nat → Nat → R (Mask × Cur)
  /-- hibit_tree.rs:301 `select_level_node_unchecked` -/
  selectU : Cur → S → Nat → Nat → R (Mask × Cur)
  /-- hibit_tree.rs:309 `data(src, level_index)` -/
  curData : Cur → S → Nat → R (Option δ)
  /-- hibit_tree.rs:316 `data_unchecked(src, level_index)` -/
  curDataU : Cur → S → Nat → R δ

/-- hibit_tree.rs:190-196 `HibitTree::get` with a `usize` argument. -/
def Impl.get {S Cur δ : Type} (I : Impl S Cur δ) (s : S) (index : Nat) : R (Option δ) := do
  let index ← indexFrom I.N I.D index
  let indices ← levelIndices I.N I.D index
  I.data s index indices

/-- hibit_tree.rs:202-207 `HibitTree::get_unchecked`. -/
def Impl.getU {S Cur δ : Type} (I : Impl S Cur δ) (s : S) (index : Nat) : R δ := do
  let indices ← levelIndices I.N I.D index
  I.dataU s index indices

/-- All coordinates are below the node width. -/
def ValidPath (W : Nat) (p : List Nat) : Prop := ∀ x ∈ p, x < W

/-- What a tree value denotes: the node masks and the stored data, by path. -/
structure TreeSpec (δ : Type) where
  /-- `bits p i`: bit `i` in the mask of the node at path `p` -/
  bits : List Nat → Nat → Bool
  /-- the element at the full path `p` -/
  content : List Nat → Option δ

/-- Cursor position predicates used by the contract. -/
structure CursorRel (Cur : Type) where
  /-- a cursor obtained by any legal history -/
  inv : Cur → Prop
  /-- positioned at the node of path `p` (levels `0..p.length` selected) -/
  pos : Cur → List Nat → Prop
  /-- positioned at `p`, the last select being a checked one -/
  posC : Cur → List Nat → Prop

/-- Well-formedness of the denotation: terminal bits say which elements exist, a node with
children is marked in its parent, and an exact tree has no marked childless nodes. -/
structure SpecWf {δ : Type} (W D : Nat) (exact : Bool) (T : TreeSpec δ) : Prop where
  bits_lt : ∀ p i, T.bits p i = true → i < W
  terminal : ∀ p i, ValidPath W p → p.length + 1 = D → i < W →
    T.bits p i = (T.content (p ++ [i])).isSome
  upward : ∀ p i j, ValidPath W p → i < W → p.length + 2 ≤ D →
    T.bits (p ++ [i]) j = true → T.bits p i = true
  exact_child : exact = true → ∀ p i, ValidPath W p → p.length + 2 ≤ D →
    T.bits p i = true → ∃ j, T.bits (p ++ [i]) j = true

/-- The contract between a tree and its users: what the doc comments of `HibitTree` and
`HibitTreeCursor` promise, with denotation `T` and cursor relation `K`. -/
structure Lawful {S Cur δ : Type} (I : Impl S Cur δ) (s : S) (T : TreeSpec δ)
    (K : CursorRel Cur) : Prop where
  cfg : ValidCfg I.N I.D
  wf : SpecWf (width I.N) I.D I.exact T
  data_eq : ∀ p, ValidPath (width I.N) p → p.length = I.D →
    I.data s (unpath (width I.N) p) p = .ok (T.content p)
  dataU_eq : ∀ p d, ValidPath (width I.N) p → p.length = I.D → T.content p = some d →
    I.dataU s (unpath (width I.N) p) p = .ok d
  new_ok : ∃ c, I.new s = .ok c ∧ K.inv c
  pos_inv : ∀ c p, K.pos c p → K.inv c
  posC_pos : ∀ c p, K.posC c p → K.pos c p
  pos_take : ∀ c p k, K.pos c p → K.pos c (p.take k)
  /-- selecting the root, always with index 0 (hibit_tree.rs:274, iter.rs:57; `SparseTree` asserts
  it, sparse_tree.rs:685) -/
  select_root : ∀ c i, K.inv c → i = 0 → ∃ m c', I.select c s 0 i = .ok (m, c') ∧
    m.length = I.N ∧ (∀ j, m.bit j = T.bits [] j) ∧ K.posC c' []
  selectU_root : ∀ c i, K.inv c → i = 0 → ∃ m c', I.selectU c s 0 i = .ok (m, c') ∧
    m.length = I.N ∧ (∀ j, m.bit j = T.bits [] j) ∧ K.pos c' []
  /-- selecting a node that may not exist -/
  select_node : ∀ c p i, K.pos c p → ValidPath (width I.N) p → i < width I.N →
    p.length + 2 ≤ I.D → ∃ m c', I.select c s (p.length + 1) i = .ok (m, c') ∧
    m.length = I.N ∧ (∀ j, m.bit j = T.bits (p ++ [i]) j) ∧ K.posC c' (p ++ [i])
  /-- selecting a node that exists -/
  selectU_node : ∀ c p i, K.pos c p → ValidPath (width I.N) p → i < width I.N →
    p.length + 2 ≤ I.D → T.bits p i = true →
    ∃ m c', I.selectU c s (p.length + 1) i = .ok (m, c') ∧
    m.length = I.N ∧ (∀ j, m.bit j = T.bits (p ++ [i]) j) ∧ K.pos c' (p ++ [i])
  curDataU_eq : ∀ c p i d, K.pos c p → ValidPath (width I.N) p → i < width I.N →
    p.length + 1 = I.D → T.content (p ++ [i]) = some d → I.curDataU c s i = .ok d

/-- The contract including the checked cursor data access. -/
structure LawfulC {S Cur δ : Type} (I : Impl S Cur δ) (s : S) (T : TreeSpec δ)
    (K : CursorRel Cur) : Prop extends Lawful I s T K where
  curData_eq : ∀ c p i, K.posC c p → ValidPath (width I.N) p → i < width I.N →
    p.length + 1 = I.D → I.curData c s i = .ok (T.content (p ++ [i]))

/-- All `(index, element)` pairs of a tree in ascending index order. -/
def entries {δ : Type} (W D : Nat) (content : List Nat → Option δ) : List (Nat × δ) :=
  (List.range (W ^ D)).filterMap (fun i => (content (path W D i)).map (fun d => (i, d)))

end Hibit
