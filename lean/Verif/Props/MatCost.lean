import Verif.Dense.MatTrace
import Verif.Props.Trace
import Verif.Props.MatMasks
import Verif.Props.Footprint
/-!
# C80: what `materialize` costs

`matTrace I s` is `materialize` on a cursor that records the `select_level_node*` calls: the new tree and the
calls. The allocator of the model hands out 0, 1, 2, …, so `t.heap.next` is the number of allocations that were made
to build `t`, and `t.heap.node a` is what is stored in block `a` if it has not been freed.
-/
namespace Hibit.Props
open Hibit Hibit.Dense

-- instance search only (the examples compare nested tuples)
set_option synthInstance.maxSize 4000

section
variable {x : Bool} {S C α : Type} {I : Impl S C α} {s : S} {M : Nat → Option α}

/-- Recording does not interfere, for any implementation of the traits, lawful or not: the recorded run gives the
same result as the plain one, errors included. -/
theorem C80_recording (I : Impl S C α) (s : S) : materialize I s = (matTrace I s).map Prod.fst :=
  matTrace_erase I s

/-- **C80**, allocations: whatever tree is materialized (any implementation of the traits, lawful or not), every
block that was allocated on the way is a node of the result (nothing is freed, moved or left behind), and every node
has exactly as many cells as its mask has bits, and one for the sentinel. -/
theorem C80_allocations {t : DT α} (e : materialize I s = .ok t) :
    (∀ a, (t.heap.node a).isSome = true ↔ a < t.heap.next) ∧
    ∀ a n, t.heap.node a = some n → n.cells.length = n.cap ∧ n.cap = popcount n.mask + 1 :=
  ⟨(materialize_trim e).live, (materialize_trim e).cap⟩

theorem src_of_tree (h : IsTree I s M) (hN : I.N = 1) (h9 : I.D ≤ 9) (hroom : card (64 ^ I.D) M < 2 ^ 32) :
    ∃ T K, Src I s T K (restrict (64 ^ I.D) M) := by
  obtain ⟨T, K, L, hc⟩ := h
  have hW : width I.N = 64 := by rw [hN]; rfl
  refine ⟨T, K, L, hN, h9, fun i hi => ?_, by rw [card_restrict]; exact hroom⟩
  have := hc i (by rw [hW]; exact hi)
  rw [hW] at this
  rw [this, restrict, if_pos hi]

/-- **C80**, select calls, for every tree expression, exact hierarchy or not: there are mask bits `B` as specified for
its content, such that `materialize` selects exactly the nodes reached through set bits, each once, in strictly
ascending (depth-first) order. The call for the node at path `q` is
`select_level_node_unchecked(q.length, last coordinate)`. -/
theorem C80_selects (h : Built x I s M) (hN : I.N = 1) (h9 : I.D ≤ 9) (hroom : card (64 ^ I.D) M < 2 ^ 32) :
    ∃ B, MaskSpec 64 I.D I.exact M B ∧ ∀ t log, matTrace I s = .ok (t, log) →
      ∃ ns : List (List Nat), log = ns.map (fun q => (q.length, q.getLastD 0)) ∧ ns.Pairwise (· < ·) ∧
        ∀ q, q ∈ ns ↔ q.length < I.D ∧ Marked 64 B q := by
  obtain ⟨T, K, X⟩ := src_of_tree (built_isTree h).1 hN h9 hroom
  refine ⟨T.bits, ?_, fun t log e => ⟨nodesUnder 64 T.bits I.D [], (matTrace_log X e).1,
    nodesUnder_pairwise _ _, fun q => ?_⟩⟩
  · have := maskSpec (I := I) (T := T) (M := M) X.L.wf (fun i hi => by
      rw [hN] at hi ⊢
      have h1 := X.hc i hi
      change i < 64 ^ I.D at hi
      rw [restrict, if_pos hi] at h1
      exact h1)
    rw [hN] at this
    exact this
  · rw [mem_nodesUnder]
    constructor
    · rintro ⟨r, hr, h1, h2⟩
      have : q = r := by simpa using hr
      subst this
      exact ⟨h1, fun u z v hv => h2 u z v hv⟩
    · rintro ⟨h1, h2⟩
      exact ⟨q, by simp, h1, fun u z v hv => h2 u z v hv⟩

/-- **C80**, exact hierarchy: materializing a tree expression with exact hierarchy, depth at most 9 and fewer than
2^32 elements selects the root and every node under which an element is stored, each exactly once, in ascending
depth-first order, and no other; it makes one allocation per select call; and the number of allocations is one for
the root and one for each aligned key range, of each level, in which a key is stored. The vectors of the result have
one slot per element besides the sentinel. -/
theorem C80_exact (h : Built x I s M) (hN : I.N = 1) (hex : I.exact = true) (h9 : I.D ≤ 9)
    (hroom : card (64 ^ I.D) M < 2 ^ 32) :
    ∃ t log, ∃ ns : List (List Nat), matTrace I s = .ok (t, log) ∧
      log = ns.map (fun q => (q.length, q.getLastD 0)) ∧ ns.Pairwise (· < ·) ∧
      (∀ q, q ∈ ns ↔ q.length < I.D ∧ (q = [] ∨ Below 64 I.D M q)) ∧
      t.heap.next = log.length ∧
      t.heap.next = 1 + ((List.range (I.D - 1)).map fun m => rangesHit I.D (m + 1) M).sum ∧
      t.data.length = 1 + card (64 ^ I.D) M ∧ t.keys.length = 1 + card (64 ^ I.D) M := by
  obtain ⟨T, K, X⟩ := src_of_tree (built_isTree h).1 hN h9 hroom
  have hD := X.L.cfg.depth
  obtain ⟨t0, e, R, hk, hd⟩ := materialize_exact X hex (fun k hk => by rw [restrict, if_neg (by omega)])
  obtain ⟨B, hB, hsel⟩ := C80_selects h hN h9 hroom
  have e' := e
  rw [C80_recording] at e'
  cases e2 : matTrace I s with
  | error er => rw [e2] at e'; cases e'
  | ok r =>
    obtain ⟨t, log⟩ := r
    rw [e2] at e'
    cases e'
    obtain ⟨ns, h1, h2, h3⟩ := hsel t log e2
    rw [hex] at hB
    have hnext : t.heap.next = 1 + ((List.range (I.D - 1)).map fun m => rangesHit I.D (m + 1) M).sum := by
      obtain ⟨as, a1, a2, a3, -⟩ := R.footprint hD (fun _ => trivial)
      have hp : as.Perm (List.range t.heap.next) := by
        rw [List.perm_ext_iff_of_nodup a1 List.nodup_range]
        intro a
        rw [a2, List.mem_range]
        exact (C80_allocations e).1 a
      have := hp.length_eq
      rw [List.length_range] at this
      rw [← this, a3]
      congr 2
      apply List.map_congr_left
      intro m _
      rw [← rangesHit_eq]
      unfold rangesHit
      congr 1
      apply List.filter_congr
      intro z _
      rw [Bool.eq_iff_iff, List.any_eq_true, List.any_eq_true]
      constructor <;> rintro ⟨k, hk1, hk2⟩ <;> refine ⟨k, hk1, ?_⟩ <;>
        simpa only [restrict, List.mem_range.1 hk1, if_true] using hk2
    refine ⟨t, log, ns, rfl, h1, h2, fun q => ?_, (matTrace_log X e2).2 hex, hnext, ?_, ?_⟩
    · rw [h3]
      by_cases hq : q = []
      · subst hq
        refine ⟨fun ⟨a, _⟩ => ⟨a, .inl rfl⟩, fun ⟨a, _⟩ => ⟨a, fun u z v hv => by simp at hv⟩⟩
      · constructor
        · rintro ⟨a, b⟩
          exact ⟨a, .inr ((marked_exact hB hq a).1 b)⟩
        · rintro ⟨a, b | b⟩
          · exact absurd b hq
          · exact ⟨a, (marked_exact hB hq a).2 b⟩
    · rw [hd, List.length_cons, List.length_map, card_eq_length, card_restrict, Nat.add_comm]
    · rw [hk, List.length_cons]
      show card (64 ^ I.D) _ + 1 = _
      rw [card_restrict, Nat.add_comm]

/-- **C80**, without exact hierarchy: the nodes selected are those reached through set bits, each once, depth first;
the blocks allocated are one per selected node that leads to a selected terminal node (level depth − 1), so never more
than the select calls. The vectors of the result have one slot per element besides the sentinel. -/
theorem C80_inexact (h : Built x I s M) (hN : I.N = 1) (hex : I.exact = false) (h9 : I.D ≤ 9)
    (hroom : card (64 ^ I.D) M < 2 ^ 32) {t : DT α} {log : List (Nat × Nat)} (e : matTrace I s = .ok (t, log)) :
    ∃ B, MaskSpec 64 I.D I.exact M B ∧ ∃ ns ms : List (List Nat),
      log = ns.map (fun q => (q.length, q.getLastD 0)) ∧ ns.Pairwise (· < ·) ∧
      (∀ q, q ∈ ns ↔ q.length < I.D ∧ Marked 64 B q) ∧
      ms.Sublist ns ∧ t.heap.next = ms.length ∧
      (∀ q, q ∈ ms ↔ q ∈ ns ∧ ∃ y ∈ ns, q <+: y ∧ y.length + 1 = I.D) ∧
      t.data.length = 1 + card (64 ^ I.D) M ∧ t.keys.length = 1 + card (64 ^ I.D) M := by
  obtain ⟨T, K, X⟩ := src_of_tree (built_isTree h).1 hN h9 hroom
  have e1 : materialize I s = .ok t := by rw [C80_recording, e]; rfl
  obtain ⟨hno, hyes⟩ := materialize_sparse_loc X hex (fun k hk => by rw [restrict, if_neg (by omega)])
  have hl : LiveS I.D T [] := by
    refine Classical.byContradiction fun hl => ?_
    rw [hno hl] at e1; cases e1
  obtain ⟨t', loc, e2, S', hloc, hk, hd⟩ := hyes hl
  rw [e1] at e2; cases e2
  have hmem : ∀ q, q ∈ nodesUnder 64 T.bits I.D [] ↔ q.length < I.D ∧ Marked 64 T.bits q := by
    intro q
    rw [mem_nodesUnder]
    constructor
    · rintro ⟨r, hr, h1, h2⟩
      have : q = r := by simpa using hr
      subst this
      exact ⟨h1, fun u z v hv => h2 u z v hv⟩
    · rintro ⟨h1, h2⟩
      exact ⟨q, by simp, h1, fun u z v hv => h2 u z v hv⟩
  have hmark : ∀ q, ValidPath 64 q → Dense.Marked T q → Marked 64 T.bits q := by
    intro q hv hm u z v e
    subst e
    exact ⟨hv z (by simp), hm u z ⟨v, by simp⟩⟩
  have hmark' : ∀ q, Marked 64 T.bits q → ValidPath 64 q ∧ Dense.Marked T q := by
    intro q hm
    refine ⟨fun z hz => ?_, ?_⟩
    · obtain ⟨u, v, rfl⟩ := List.append_of_mem hz
      exact (hm u z v rfl).1
    · rintro r i ⟨v, rfl⟩
      exact (hm r i v (by simp)).2
  have hin : ∀ q a, loc q = some a → q ∈ nodesUnder 64 T.bits I.D [] := by
    intro q a ha
    obtain ⟨y, hqy, y1, y2, y3⟩ := (hloc q).1 ⟨a, ha⟩
    have hle := hqy.length_le
    rw [hmem]
    refine ⟨by omega, hmark q (fun z hz => y1 z (hqy.subset hz)) (fun r i hr => y3 r i (hr.trans hqy))⟩
  refine ⟨T.bits, ?_, nodesUnder 64 T.bits I.D [],
    (nodesUnder 64 T.bits I.D []).filter (fun q => (loc q).isSome), (matTrace_log X e).1,
    nodesUnder_pairwise _ _, hmem, List.filter_sublist, ?_, ?_, ?_, ?_⟩
  · have := maskSpec (I := I) (T := T) (M := M) X.L.wf (fun i hi => by
      rw [hN] at hi ⊢
      have h1 := X.hc i hi
      change i < 64 ^ I.D at hi
      rw [restrict, if_pos hi] at h1
      exact h1)
    rw [hN] at this
    exact this
  · rw [← filterMap_length_filter]
    have hp : ((nodesUnder 64 T.bits I.D []).filterMap loc).Perm (List.range t.heap.next) := by
      rw [List.perm_ext_iff_of_nodup (nodup_filterMap_inj ?_ S'.tree.rep.inj) List.nodup_range]
      · intro a
        rw [List.mem_filterMap, List.mem_range, ← (C80_allocations e1).1 a]
        constructor
        · rintro ⟨p, _, ha⟩
          obtain ⟨n, hn, -⟩ := S'.tree.rep.node p a ha
          simp only [fixT, fixHeap, Option.map_eq_some_iff] at hn
          obtain ⟨m, hm, -⟩ := hn
          rw [hm]; rfl
        · intro hs
          obtain ⟨n, hn⟩ := Option.isSome_iff_exists.1 hs
          obtain ⟨p, hp⟩ := S'.tree.rep.cover a (fixLen n) (by simp [fixT, fixHeap, hn])
          exact ⟨p, hin p a hp, hp⟩
      · exact (nodesUnder_pairwise I.D []).imp (fun {a b} hab (heq : a = b) =>
          absurd (heq ▸ hab) (List.lt_irrefl a))
    have := hp.length_eq
    rw [List.length_range] at this
    exact this.symm
  · intro q
    rw [List.mem_filter]
    refine and_congr_right fun hq => ?_
    rw [Option.isSome_iff_exists, hloc]
    constructor
    · rintro ⟨y, h1, h2, h3, h4⟩
      exact ⟨y, (hmem y).2 ⟨by omega, hmark y h2 h4⟩, h1, h3⟩
    · rintro ⟨y, h1, h2, h3⟩
      obtain ⟨v1, v2⟩ := hmark' y ((hmem y).1 h1).2
      exact ⟨y, h2, v1, h3, v2⟩
  · rw [hd, List.length_cons, List.length_map, card_eq_length, card_restrict, Nat.add_comm]
  · rw [hk, List.length_cons]
    show card (64 ^ I.D) _ + 1 = _
    rw [card_restrict, Nat.add_comm]

end

/-- The union of the example trees (keys 5, 64, 200 and 5, 4095): the root and the nodes of the blocks 0, 1, 3 and 63
are selected, in this order, and five blocks are allocated. -/
example : Built true exUnion (exD, exU) (unionMap exDM exUM) ∧ exUnion.exact = true ∧ exUnion.N = 1 ∧
    exUnion.D ≤ 9 ∧ card (64 ^ exUnion.D) (unionMap exDM exUM) < 2 ^ 32 ∧
    (do let r ← matTrace exUnion (exD, exU)
        return (r.2, r.1.heap.next, r.1.keys.drop 1) : R _) =
      .ok ([(0, 0), (1, 0), (1, 1), (1, 3), (1, 63)], 5, [5, 64, 200, 4095]) :=
  ⟨exUnion_built, rfl, rfl, by decide, by decide +kernel, by decide +kernel⟩

/-- An intersection (no exact hierarchy) of depth 3, `{0, 5000} ∩ {64, 5000}`: the node of the keys below 4096 is
selected, since both trees have something there, but nothing is allocated for it. -/
example : (do let a ← denseOf 3 [0, 5000]
              let b ← denseOf 3 [64, 5000]
              let r ← matTrace (interImpl (impl Nat 3) (impl Nat 3)) (a, b)
              return (r.2, r.1.heap.next, r.1.keys.drop 1) : R _) =
    .ok ([(0, 0), (1, 0), (1, 1), (2, 14)], 3, [5000]) := by decide +kernel

/-- The hypotheses of `C80_inexact` are met by the intersection of the example trees. -/
example : ∃ t, matTrace (interImpl (impl Nat 2) (Sparse.impl Nat 1 2)) (exD, exU) = .ok (t, [(0, 0), (1, 0)]) ∧
    t.heap.next = 2 ∧ ∃ B, MaskSpec 64 2 false (interMap exDM exUM) B := by
  have hB : Built true (interImpl (impl Nat 2) (Sparse.impl Nat 1 2)) (exD, exU) (interMap exDM exUM) :=
    .inter rfl rfl exD_built exU_built
  have key : (do let r ← matTrace (interImpl (impl Nat 2) (Sparse.impl Nat 1 2)) (exD, exU)
                 return (r.2, r.1.heap.next) : R _) = .ok ([(0, 0), (1, 0)], 2) := by decide +kernel
  obtain ⟨⟨t, log⟩, e1, e2⟩ := bind_inv key
  simp only [pure_eq_ok, Except.ok.injEq, Prod.mk.injEq] at e2
  obtain ⟨rfl, h2⟩ := e2
  obtain ⟨B, h, -⟩ := C80_inexact hB rfl rfl (by decide) (by decide +kernel) e1
  exact ⟨t, e1, h2, B, h⟩

end Hibit.Props
