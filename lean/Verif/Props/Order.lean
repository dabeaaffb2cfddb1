import Verif.OrderSpec
import Verif.Props.Dense
import Verif.Props.Sparse
/-!
# Property C51: the order of `key_values()`
-/
namespace Hibit.Props
open Hibit

/-! ## DenseTree -/

section
open Hibit.Dense
variable {α : Type} {D : Nat}

/-- What an operation does to the entries of `key_values()`. -/
def denseOrder (L : List (Nat × α)) : Dense.Op α → List (Nat × α)
  | .insert k v => upsert L k fun _ => v
  | .getOrInsert k d g => upsert L k fun o => g (o.getD d)
  | .remove k => swapRemoveKey L k
  | .get _ => L
  | .mutValues g => L.map fun e => (e.1, g e.1 e.2)

/-- `get_or_insert_impl` writes the two vectors in one of two ways. -/
theorem dense_insert_shape {t : DT α} {k : Nat} {ins : Bool} {v : α} {out : Dense.InsOut α}
    (h : Dense.getOrInsertImpl D t k ins v = .ok out) :
    (out.tree.keys = t.keys ++ [k] ∧ out.tree.data = t.data ++ [some v] ∧
      out.dataIndex = t.data.length) ∨
    (out.tree.keys = t.keys ∧ ∃ old, t.data[out.dataIndex]? = some (some old) ∧
      out.tree.data = if ins then t.data.set out.dataIndex (some v) else t.data) := by
  unfold Dense.getOrInsertImpl at h
  obtain ⟨indices, -, h⟩ := bind_inv h
  obtain ⟨w, -, h⟩ := bind_inv h
  obtain ⟨np, -, h⟩ := bind_inv h
  obtain ⟨ii, -, h⟩ := bind_inv h
  obtain ⟨n, -, h⟩ := bind_inv h
  obtain ⟨c, -, h⟩ := bind_inv h
  cases c with
  | true =>
    simp only [if_true] at h
    obtain ⟨cell, -, h⟩ := bind_inv h
    obtain ⟨i, -, h⟩ := bind_inv h
    right
    cases ins with
    | true =>
      simp only [if_true] at h
      obtain ⟨o, h1, h⟩ := bind_inv h
      obtain ⟨o', h2, h⟩ := bind_inv h
      obtain ⟨d, h3, h⟩ := bind_inv h
      cases h
      have := unwrapU_inv h2
      subst this
      exact ⟨rfl, o', getU_inv h1, (setU_inv h3).1⟩
    | false =>
      simp only [Bool.false_eq_true, if_false] at h
      obtain ⟨o, h1, h⟩ := bind_inv h
      obtain ⟨o', h2, h⟩ := bind_inv h
      cases h
      have := unwrapU_inv h2
      subst this
      exact ⟨rfl, o', getU_inv h1, rfl⟩
  | false =>
    simp only [Bool.false_eq_true, if_false] at h
    obtain ⟨x, -, h⟩ := bind_inv h
    obtain ⟨w', -, h⟩ := bind_inv h
    cases h
    exact .inl ⟨rfl, rfl, rfl⟩

theorem dense_removeKey_shape {t t' : DT α} {k d : Nat} (h : removeKey D t k d = .ok t') :
    t'.data = t.data ∧ ∃ kl, t.keys.getLast? = some kl ∧
      ((kl = k ∧ t'.keys = t.keys.dropLast) ∨
       (kl ≠ k ∧ d < t.keys.dropLast.length ∧ t'.keys = t.keys.dropLast.set d kl)) := by
  unfold removeKey at h
  obtain ⟨kl, h1, h⟩ := bind_inv h
  have hkl := unwrapU_inv h1
  by_cases e : kl = k
  · simp only [e, ne_eq, not_true_eq_false, if_false] at h
    cases h
    exact ⟨rfl, kl, hkl, .inl ⟨e, rfl⟩⟩
  · simp only [e, ne_eq, not_false_eq_true, if_true] at h
    obtain ⟨ks, h2, h⟩ := bind_inv h
    obtain ⟨ix, -, h⟩ := bind_inv h
    obtain ⟨nd, -, h⟩ := bind_inv h
    obtain ⟨hh, -, h⟩ := bind_inv h
    cases h
    obtain ⟨g1, g2⟩ := setU_inv h2
    exact ⟨rfl, kl, hkl, .inr ⟨e, g2, g1⟩⟩

/-- `remove` leaves the two vectors alone or does `swap_remove` on both. -/
theorem dense_remove_shape {t t' : DT α} {k : Nat} {o : Option α} (h9 : D ≤ 9) (hk : k < 64 ^ D)
    (h : Dense.remove D t k = .ok (t', o)) :
    (o = none ∧ t'.keys = t.keys ∧ t'.data = t.data) ∨
    ∃ d v dl kl, o = some v ∧ t.keys[d]? = some k ∧ t.data[d]? = some (some v) ∧
      t.data.getLast? = some dl ∧ t.keys.getLast? = some kl ∧
      t'.data = (t.data.set d dl).dropLast ∧
      ((kl = k ∧ t'.keys = t.keys.dropLast) ∨
       (kl ≠ k ∧ d < t.keys.dropLast.length ∧ t'.keys = t.keys.dropLast.set d kl)) := by
  unfold Dense.remove at h
  rw [indexFrom_ok h9, if_pos hk] at h
  simp only [bind_ok] at h
  obtain ⟨indices, -, h⟩ := bind_inv h
  obtain ⟨br, -, h⟩ := bind_inv h
  obtain ⟨tn, -, h⟩ := bind_inv h
  obtain ⟨inner, -, h⟩ := bind_inv h
  obtain ⟨cell, -, h⟩ := bind_inv h
  obtain ⟨d, -, h⟩ := bind_inv h
  obtain ⟨key, h1, h⟩ := bind_inv h
  by_cases e : key = k
  · subst e
    simp only [if_true] at h
    obtain ⟨hp, -, h⟩ := bind_inv h
    obtain ⟨t1, h2, h⟩ := bind_inv h
    obtain ⟨⟨v, data⟩, h3, h⟩ := bind_inv h
    cases h
    obtain ⟨g1, kl, g2, g3⟩ := dense_removeKey_shape h2
    unfold Dense.swapRemove at h3
    obtain ⟨x, h4, h3⟩ := bind_inv h3
    obtain ⟨y, h5, h3⟩ := bind_inv h3
    obtain ⟨z, h6, h3⟩ := bind_inv h3
    cases h3
    have hx : t1.data[d]? = some x := by
      unfold getP at h4
      split at h4
      · cases h4; assumption
      · cases h4
    have := unwrapU_inv h5
    subst this
    rw [g1] at hx
    have h6 := unwrapU_inv h6
    rw [g1] at h6
    exact .inr ⟨d, v, z, kl, rfl, getU_inv h1, hx, h6, g2, by simp only [g1], g3⟩
  · simp only [e, if_false] at h
    cases h
    exact .inl ⟨rfl, rfl, rfl⟩

variable {ex : List Nat → Prop} {t t' : DT α} {M : Nat → Option α} {k0 : Nat} {L : List (Nat × α)}

theorem dense_keys_nodup (R : DRep ex D t M) : (t.keys.drop 1).Nodup := by
  obtain ⟨loc, K, S⟩ := R
  obtain ⟨vs, -, -, h, -⟩ := S.enumerate
  exact h

/-- Whether a key is listed is whether it is in the map. -/
theorem dense_mem_keys (R : DRep ex D t M) {d0 : Option α} (H : Kv k0 d0 t.keys t.data L) {k : Nat}
    (hk : k < 64 ^ D) : k ∈ L.map (·.1) ↔ (M k).isSome = true := by
  obtain ⟨loc, K, S⟩ := R
  obtain ⟨vs, h1, h2, h3, h4⟩ := S.enumerate
  have hdk : t.keys.drop 1 = L.map (·.1) := by rw [H.keys]; rfl
  rw [← hdk]
  constructor
  · intro hm
    obtain ⟨j, hj, e⟩ := List.getElem_of_mem hm
    have hjv : j < vs.length := by simp only [List.length_drop] at hj; omega
    have := (h4 k vs[j]).1 ⟨j, by rw [List.getElem?_eq_getElem hj, e], List.getElem?_eq_getElem hjv⟩
    rw [this.2]; rfl
  · intro hm
    obtain ⟨v, hv⟩ := Option.isSome_iff_exists.1 hm
    obtain ⟨j, g1, -⟩ := (h4 k v).2 ⟨hk, hv⟩
    exact List.mem_of_getElem? g1

theorem dense_step_order (R : DRep ex D t M) {op : Dense.Op α} (h2 : op.OkDepth D) (h9 : D ≤ 9)
    (hr : op.InRange (64 ^ D)) (hb : card (64 ^ D) (op.spec M).1 < 2 ^ 32)
    (H : Kv (usizeMod - 1) none t.keys t.data L) {o : Option α × List α}
    (he : Dense.step D t op = .ok (t', o)) :
    Kv (usizeMod - 1) none t'.keys t'.data (denseOrder L op) := by
  have h1 : 1 ≤ D := by
    cases op with
    | remove k => exact Nat.le_of_succ_le h2
    | _ => exact h2
  obtain ⟨t1, e1, R'⟩ := step_spec R h2 h9 hr hb
  rw [he] at e1
  cases e1
  have hnd := dense_keys_nodup R'
  cases op with
  | get k =>
    simp only [Dense.step] at he
    obtain ⟨v, -, he⟩ := bind_inv he
    cases he
    exact H
  | mutValues g =>
    simp only [Dense.step, Dense.mutValues] at he
    obtain ⟨t2, he, he'⟩ := bind_inv he
    cases he'
    obtain ⟨⟨ks, vs⟩, h3, he⟩ := bind_inv he
    cases he
    unfold Dense.keyValues at h3
    split at h3
    · cases h3
      exact H.map g
    · cases h3
  | insert k v =>
    have hk : k < 64 ^ D := hr
    simp only [Dense.step, Dense.insert, indexFrom_ok h9, if_pos hk, bind_ok] at he
    obtain ⟨out, h3, he⟩ := bind_inv he
    simp only [pure_eq_ok, Except.ok.injEq, Prod.mk.injEq] at he
    obtain ⟨rfl, -⟩ := he
    obtain ⟨k1, k2⟩ := getOrInsertImpl_key R h1 h9 hk true v h3
    rcases dense_insert_shape h3 with ⟨q1, q2, q3⟩ | ⟨q1, old, q2, q3⟩
    · rw [q1] at hnd
      rw [q1, q2]
      exact H.push hnd fun _ => v
    · rw [q1] at k1
      rw [q1, q3, if_pos rfl]
      exact H.set k2 k1 q2 fun _ => v
  | getOrInsert k d g =>
    have hk : k < 64 ^ D := hr
    simp only [Dense.step, Dense.getOrInsert, indexFrom_ok h9, if_pos hk, bind_ok] at he
    obtain ⟨out, h3, he⟩ := bind_inv he
    obtain ⟨⟨t2, v⟩, h4, he⟩ := bind_inv he
    simp only [pure_eq_ok, Except.ok.injEq, Prod.mk.injEq] at he
    obtain ⟨rfl, -⟩ := he
    unfold Dense.writeRef at h4
    obtain ⟨o1, h5, h4⟩ := bind_inv h4
    obtain ⟨o2, h6, h4⟩ := bind_inv h4
    obtain ⟨ds, h7, h4⟩ := bind_inv h4
    cases h4
    have h5 := getU_inv h5
    have := unwrapU_inv h6
    subst this
    obtain ⟨rfl, -⟩ := setU_inv h7
    obtain ⟨k1, k2⟩ := getOrInsertImpl_key R h1 h9 hk false d h3
    simp only at hnd ⊢
    rcases dense_insert_shape h3 with ⟨q1, q2, q3⟩ | ⟨q1, old, q2, q3⟩
    · rw [q1] at hnd
      rw [q2, q3] at h5
      simp only [List.length_append, List.length_cons, List.length_nil, List.getElem?_concat_length,
        Option.some.injEq] at h5
      subst h5
      rw [q1, q2, q3, List.set_append_right _ _ (by omega), Nat.sub_self]
      exact H.push hnd fun o => g (o.getD d)
    · rw [q1] at k1
      simp only [Bool.false_eq_true, if_false] at q3
      rw [q3] at h5
      rw [q1, q3]
      exact H.set k2 k1 h5 fun o => g (o.getD d)
  | remove k =>
    have hk : k < 64 ^ D := hr
    obtain ⟨t2, e2, -, -⟩ := remove_spec R h2 h9 hk
    simp only [Dense.step, e2, bind_ok, pure_eq_ok, Except.ok.injEq, Prod.mk.injEq] at he
    obtain ⟨rfl, -⟩ := he
    have hmem := dense_mem_keys R H hk
    rcases dense_remove_shape h9 hk e2 with ⟨q1, q2, q3⟩ | ⟨d, v, dl, kl, q1, q2, q3, q4, q5, q6, q7⟩
    · have : k ∉ L.map (·.1) := by rw [hmem, q1]; simp
      rw [q2, q3]
      simp only [denseOrder, swapRemoveKey_absent this]
      exact H
    · have hd1 : 1 ≤ d := by
        rcases d with _ | d
        · rw [H.data] at q3; simp at q3
        · omega
      have hH := H.swapRemove hd1 q2 q3 q5 q4
      have hkeys : t2.keys = (t.keys.set d kl).dropLast := by
        rcases q7 with ⟨g1, g2⟩ | ⟨g1, g2, g3⟩
        · -- the removed key is the last one
          subst g1
          rw [g2]
          have hs : t.keys.set d kl = t.keys := by
            apply List.ext_getElem?
            intro j
            obtain ⟨hl, -⟩ := List.getElem?_eq_some_iff.1 q2
            rw [List.getElem?_set]
            by_cases e : d = j
            · subst e; rw [if_pos rfl, if_pos hl, q2]
            · rw [if_neg e]
          rw [hs]
        · rw [g3, set_dropLast _ (by simpa using g2)]
      rw [hkeys, q6]
      exact hH

/-- The entries after a history. -/
def denseEntries (ops : List (Dense.Op α)) : List (Nat × α) := ops.foldl denseOrder []

theorem dense_run_order (h9 : D ≤ 9) : ∀ (ops : List (Dense.Op α)) (t t' : DT α)
    (M : Nat → Option α) (L : List (Nat × α)) (outs : List (Option α × List α)),
    DRep ex D t M → (∀ op ∈ ops, op.OkDepth D) → (∀ op ∈ ops, op.InRange (64 ^ D)) →
    Bounded (64 ^ D) (2 ^ 32) M ops → Kv (usizeMod - 1) none t.keys t.data L →
    Dense.run D t ops = .ok (t', outs) →
    Kv (usizeMod - 1) none t'.keys t'.data (ops.foldl denseOrder L) := by
  intro ops
  induction ops with
  | nil => intro t t' M L outs _ _ _ _ H he; cases he; exact H
  | cons op ops ih =>
    intro t t' M L outs R h2 hr hb H he
    have hb' : card (64 ^ D) (op.spec M).1 < 2 ^ 32 := by
      have := hb.2
      cases ops with
      | nil => exact this
      | cons o os => exact this.1
    obtain ⟨t1, e1, R1⟩ := step_spec R (h2 op (by simp)) h9 (hr op (by simp)) hb'
    simp only [Dense.run, e1, bind_ok] at he
    obtain ⟨⟨t2, os⟩, e2, he⟩ := bind_inv he
    cases he
    exact ih t1 t2 _ _ os R1 (fun o ho => h2 o (by simp [ho])) (fun o ho => hr o (by simp [ho])) hb.2
      (dense_step_order R (h2 op (by simp)) h9 (hr op (by simp)) hb' H e1) e2

/-- **C51**, DenseTree: after any supported history `key_values()` lists exactly the entries in the
order given by the operations: a new key goes last, writing a present key keeps its position, `remove`
moves the last entry to the freed position. -/
theorem C51_dense_order {ops : List (Dense.Op α)} (h : DenseHistory D ops) {t : DT α}
    (hr : DenseReached D ops t) :
    Dense.keyValues t = .ok ((denseEntries ops).map (·.1), (denseEntries ops).map fun e => some e.2) := by
  obtain ⟨t0, outs, e0, e1⟩ := hr
  obtain ⟨t0', e0', R0⟩ := default_rep α h.depth_pos h.depth_le
  rw [e0] at e0'
  cases e0'
  have H0 : Kv (usizeMod - 1) none t0.keys t0.data ([] : List (Nat × α)) := by
    unfold Dense.default at e0
    by_cases hD : D = 1
    · simp only [hD, if_true] at e0
      obtain ⟨r, -, e0⟩ := bind_inv e0
      cases e0
      exact ⟨rfl, rfl, List.Pairwise.nil⟩
    · simp only [hD, if_false] at e0
      obtain ⟨e, -, e0⟩ := bind_inv e0
      obtain ⟨r, -, e0⟩ := bind_inv e0
      cases e0
      exact ⟨rfl, rfl, List.Pairwise.nil⟩
  have H := dense_run_order h.depth_le ops t0 t emptyMap [] outs R0 h.okDepth h.inRange h.bounded H0 e1
  unfold Dense.keyValues
  rw [H.keys, H.data, if_pos ⟨by simp, by simp⟩]
  rfl

/-- Overwrite in place, swap on removal: the concrete history of C11. -/
example : denseEntries exOps = [(5, 56), (64, 72), (200, 202)] := by decide
example : denseEntries [.insert 1 10, .insert 2 20, .insert 3 30, .remove 1, .insert 2 21,
    (.insert 1 11 : Dense.Op Nat)] = [(3, 30), (2, 21), (1, 11)] := by decide

end

/-! ## SparseTree -/

section
open Hibit.Sparse
variable {α : Type} {N D : Nat} {cap : Nat → Nat} {dflt : Option α} {Ph : List Nat} {t t' : ST α}
  {M : Nat → Option α} {L : List (Nat × α)}

/-- What an operation does to the entries of `key_values()`. -/
def sparseOrder (L : List (Nat × α)) : Sparse.Op α → List (Nat × α)
  | .insert k v => upsert L k fun _ => v
  | .getOrInsert k d g => upsert L k fun o => g (o.getD d)
  | .remove k => swapRemoveKey L k
  | .get _ => L
  | .getMut k g => L.map fun e => if e.1 = k then (e.1, g e.2) else e
  | .getOrDefault _ => L
  | .mutValues g => L.map fun e => (e.1, g e.1 e.2)

theorem sparse_insert_shape {k : Nat} {ins : Bool} {v : α} {out : Sparse.InsOut α}
    (h : Sparse.getOrInsertImpl N D t k ins v = .ok out) :
    (out.tree.keys = t.keys ++ [k] ∧ out.tree.values = t.values ++ [some v] ∧
      out.dataIndex = t.values.length) ∨
    (out.tree.keys = t.keys ∧ ∃ old, t.values[out.dataIndex]? = some (some old) ∧
      out.tree.values = if ins then t.values.set out.dataIndex (some v) else t.values) := by
  unfold Sparse.getOrInsertImpl at h
  obtain ⟨indices, -, h⟩ := bind_inv h
  obtain ⟨ii, -, h⟩ := bind_inv h
  obtain ⟨⟨⟨lv, bi⟩, st⟩, -, h⟩ := bind_inv h
  obtain ⟨Lv, -, h⟩ := bind_inv h
  obtain ⟨b, -, h⟩ := bind_inv h
  obtain ⟨di, -, h⟩ := bind_inv h
  by_cases e : di = 0
  · simp only [e, if_true] at h
    obtain ⟨b', -, h⟩ := bind_inv h
    obtain ⟨bs, -, h⟩ := bind_inv h
    cases h
    exact .inl ⟨rfl, rfl, rfl⟩
  · simp only [e, if_false] at h
    obtain ⟨o, h1, h3⟩ := bind_inv h
    obtain ⟨o', h2, h4⟩ := bind_inv h3
    rw [unwrapU_inv h2] at h1
    clear h h3 h2
    right
    cases ins with
    | true =>
      simp only [if_true] at h4
      obtain ⟨d, h5, h6⟩ := bind_inv h4
      cases h6
      exact ⟨rfl, o', getU_inv h1, (setU_inv h5).1⟩
    | false =>
      simp only [Bool.false_eq_true, if_false] at h4
      cases h4
      exact ⟨rfl, o', getU_inv h1, rfl⟩

theorem sparse_swapRemove_shape {β : Type} {l l' : List β} {i : Nat} {x : β}
    (h : Sparse.swapRemove l i = .ok (x, l')) :
    l[i]? = some x ∧ ∃ z, l.getLast? = some z ∧ l' = (l.set i z).dropLast := by
  unfold Sparse.swapRemove at h
  obtain ⟨v, h1, h⟩ := bind_inv h
  obtain ⟨z, h2, h⟩ := bind_inv h
  cases h
  refine ⟨?_, z, unwrapU_inv h2, rfl⟩
  unfold getP at h1
  split at h1
  · cases h1; assumption
  · cases h1

theorem sparse_moveLast_shape {d : Nat} (h : moveLast D t d = .ok t') :
    t'.keys = t.keys ∧ t'.values = t.values := by
  unfold moveLast at h
  obtain ⟨l, -, h⟩ := bind_inv h
  simp only at h
  split at h
  · obtain ⟨r, -, h⟩ := bind_inv h
    obtain ⟨Lv, -, h⟩ := bind_inv h
    obtain ⟨b, -, h⟩ := bind_inv h
    obtain ⟨b', -, h⟩ := bind_inv h
    obtain ⟨bs, -, h⟩ := bind_inv h
    cases h
    exact ⟨rfl, rfl⟩
  · cases h; exact ⟨rfl, rfl⟩

theorem sparse_remove_shape {k : Nat} {o : Option α} (hk : k < Sparse.keyRange N D)
    {lbi : List Nat} {di : Nat} {li : List Nat} (hl : levelIndices N D k = .ok li)
    (hf : fetchBlockIndices t li = .ok (lbi, di)) (h : Sparse.remove N D t k = .ok (t', o)) :
    (di = 0 ∧ o = none ∧ t'.keys = t.keys ∧ t'.values = t.values) ∨
    (di ≠ 0 ∧ ∃ kl dl, t.values.getLast? = some dl ∧ t.keys.getLast? = some kl ∧
      t'.keys = (t.keys.set di kl).dropLast ∧ t'.values = (t.values.set di dl).dropLast) := by
  unfold Sparse.remove at h
  rw [indexFrom_eq, if_pos hk] at h
  simp only [bind_ok, hl, hf] at h
  by_cases e : di = 0
  · simp only [e, if_true] at h
    cases h
    exact .inl ⟨e, rfl, rfl, rfl⟩
  · simp only [e, if_false] at h
    obtain ⟨lv, -, h⟩ := bind_inv h
    obtain ⟨t1, h1, h⟩ := bind_inv h
    obtain ⟨⟨k', ks⟩, h2, h⟩ := bind_inv h
    obtain ⟨⟨v, vs⟩, h3, h⟩ := bind_inv h
    obtain ⟨w, h4, h⟩ := bind_inv h
    cases h
    obtain ⟨q1, q2⟩ := sparse_moveLast_shape h1
    obtain ⟨g1, kl, g2, g3⟩ := sparse_swapRemove_shape h2
    obtain ⟨g4, dl, g5, g6⟩ := sparse_swapRemove_shape h3
    simp only at q1 q2
    rw [q1] at g2 g3
    rw [q2] at g5 g6
    exact .inr ⟨e, kl, dl, g5, g2, g3, g6⟩

theorem sparse_keys_nodup (R : SRep N D cap dflt Ph t M) : (t.keys.drop 1).Nodup := by
  obtain ⟨B, S⟩ := R
  obtain ⟨vs, -, -, h, -⟩ := S.enumerate
  exact h

theorem sparse_mem_keys (R : SRep N D cap dflt Ph t M) {k0 : Nat} {d0 : Option α}
    (H : Kv k0 d0 t.keys t.values L) {k : Nat}
    (hk : k < width N ^ D) : k ∈ L.map (·.1) ↔ (M k).isSome = true := by
  obtain ⟨B, S⟩ := R
  obtain ⟨vs, h1, h2, h3, h4⟩ := S.enumerate
  have hdk : t.keys.drop 1 = L.map (·.1) := by rw [H.keys]; rfl
  rw [← hdk]
  constructor
  · intro hm
    obtain ⟨j, hj, e⟩ := List.getElem_of_mem hm
    have hjv : j < vs.length := by simp only [List.length_drop] at hj; omega
    have := (h4 k vs[j]).1 ⟨j, by rw [List.getElem?_eq_getElem hj, e], List.getElem?_eq_getElem hjv⟩
    rw [this.2]; rfl
  · intro hm
    obtain ⟨v, hv⟩ := Option.isSome_iff_exists.1 hm
    obtain ⟨j, g1, -⟩ := (h4 k v).2 ⟨hk, hv⟩
    exact List.mem_of_getElem? g1

theorem map_absent {k : Nat} {g : α → α} (h : k ∉ L.map (·.1)) :
    (L.map fun e => if e.1 = k then (e.1, g e.2) else e) = L := by
  rw [List.map_congr_left (g := id), List.map_id]
  intro e he
  rw [if_neg]; · rfl
  rintro rfl
  exact h (List.mem_map.2 ⟨e, he, rfl⟩)

theorem map_present {k : Nat} {g : α → α} (h : k ∈ L.map (·.1)) :
    (L.map fun e => if e.1 = k then (e.1, g e.2) else e) =
      upsert L k (fun o => match o with | some v => g v | none => g (L.head (by rintro rfl; cases h)).2) := by
  unfold upsert
  rw [if_pos (any_key_iff.2 h)]

theorem sparse_step_order (hc : Cfg N D) (hcap : CapOk D cap) (R : SRep N D cap dflt Ph t M)
    {op : Sparse.Op α} (hok : op.Ok (Sparse.keyRange N D) dflt)
    (hfit : Fits (width N) D cap (occ Ph (op.spec dflt M).1))
    (H : Kv (usizeMod - 1) dflt t.keys t.values L) {o : Option α × List α}
    (he : Sparse.step N D t op = .ok (t', o)) :
    Kv (usizeMod - 1) dflt t'.keys t'.values (sparseOrder L op) := by
  obtain ⟨t1, e1, R'⟩ := Sparse.step_spec hc hcap R hok hfit
  rw [he] at e1
  cases e1
  have hnd := sparse_keys_nodup R'
  have hlt : ∀ {k}, k < Sparse.keyRange N D → k < width N ^ D := fun h =>
    Nat.lt_of_lt_of_le h (keyRange_le N D)
  cases op with
  | get k =>
    simp only [Sparse.step] at he
    obtain ⟨v, -, he⟩ := bind_inv he
    cases he
    exact H
  | getOrDefault k =>
    simp only [Sparse.step] at he
    obtain ⟨v, -, he⟩ := bind_inv he
    simp only [pure_eq_ok, Except.ok.injEq, Prod.mk.injEq] at he
    obtain ⟨rfl, -⟩ := he
    exact H
  | mutValues g =>
    simp only [Sparse.step, Sparse.mutValues] at he
    obtain ⟨t2, he, he'⟩ := bind_inv he
    cases he'
    obtain ⟨⟨ks, vs⟩, h3, he⟩ := bind_inv he
    cases he
    unfold Sparse.keyValues at h3
    split at h3
    · cases h3
      exact H.map g
    · cases h3
  | insert k v =>
    have hk : k < Sparse.keyRange N D := hok
    obtain ⟨B, S⟩ := R
    obtain ⟨out, B', h3, S', e3, e4, -⟩ := S.getOrInsert_fits hc hcap (hlt hk) true v hfit
    simp only [Sparse.step, Sparse.insert, indexFrom_eq, if_pos hk, bind_ok, h3, pure_eq_ok,
      Except.ok.injEq, Prod.mk.injEq] at he
    obtain ⟨rfl, -⟩ := he
    have k1 := S'.data.keyOf _ (path_length _ _ _) (e3 ▸ e4)
    rw [unpath_path _ D k (hlt hk), ← e3] at k1
    rcases sparse_insert_shape h3 with ⟨q1, q2, q3⟩ | ⟨q1, old, q2, q3⟩
    · rw [q1] at hnd
      rw [q1, q2]
      exact H.push hnd fun _ => v
    · rw [q1] at k1
      rw [q1, q3, if_pos rfl]
      exact H.set (by omega) k1 q2 fun _ => v
  | getOrInsert k d g =>
    have hk : k < Sparse.keyRange N D := hok
    obtain ⟨B, S⟩ := R
    obtain ⟨out, B', h3, S', e3, e4, -⟩ := S.getOrInsert_fits hc hcap (hlt hk) false d hfit
    simp only [Sparse.step, Sparse.getOrInsert, indexFrom_eq, if_pos hk, bind_ok, h3] at he
    obtain ⟨⟨t2, v⟩, h4, he⟩ := bind_inv he
    simp only [pure_eq_ok, Except.ok.injEq, Prod.mk.injEq] at he
    obtain ⟨rfl, -⟩ := he
    have k1 := S'.data.keyOf _ (path_length _ _ _) (e3 ▸ e4)
    rw [unpath_path _ D k (hlt hk), ← e3] at k1
    unfold Sparse.writeRef at h4
    obtain ⟨o1, h5, h4⟩ := bind_inv h4
    obtain ⟨o2, h6, h4⟩ := bind_inv h4
    obtain ⟨ds, h7, h4⟩ := bind_inv h4
    cases h4
    have h5 := getU_inv h5
    have := unwrapU_inv h6
    subst this
    obtain ⟨rfl, -⟩ := setU_inv h7
    simp only at hnd ⊢
    rcases sparse_insert_shape h3 with ⟨q1, q2, q3⟩ | ⟨q1, old, q2, q3⟩
    · rw [q1] at hnd
      rw [q2, q3] at h5
      simp only [List.getElem?_concat_length, Option.some.injEq] at h5
      subst h5
      rw [q1, q2, q3, List.set_append_right _ _ (by omega), Nat.sub_self]
      exact H.push hnd fun o => g (o.getD d)
    · rw [q1] at k1
      simp only [Bool.false_eq_true, if_false] at q3
      rw [q3] at h5
      rw [q1, q3]
      exact H.set (by omega) k1 h5 fun o => g (o.getD d)
  | getMut k g =>
    have hk : k < Sparse.keyRange N D := hok
    have hmem := sparse_mem_keys R H (hlt hk)
    obtain ⟨B, S⟩ := R
    simp only [Sparse.step, S.getMut_spec hc hk, bind_ok] at he
    rcases S.entry (hlt hk) with ⟨g1, g2⟩ | ⟨v, g1, g2, g3⟩
    · simp only [g1, Option.isSome_none, Bool.false_eq_true, if_false, pure_eq_ok, Except.ok.injEq,
        Prod.mk.injEq] at he
      obtain ⟨rfl, -⟩ := he
      have : k ∉ L.map (·.1) := by rw [hmem, g1]; simp
      simp only [sparseOrder, map_absent this]
      exact H
    · simp only [g1, Option.isSome_some, if_true] at he
      obtain ⟨⟨t2, w⟩, h4, he⟩ := bind_inv he
      simp only [pure_eq_ok, Except.ok.injEq, Prod.mk.injEq] at he
      obtain ⟨rfl, -⟩ := he
      unfold Sparse.writeRef at h4
      simp only [getU_some g3, bind_ok, unwrapU] at h4
      obtain ⟨ds, h7, h4⟩ := bind_inv h4
      cases h4
      obtain ⟨rfl, -⟩ := setU_inv h7
      have k1 := S.data.keyOf _ (path_length _ _ _) g2
      rw [unpath_path _ D k (hlt hk)] at k1
      have hm : k ∈ L.map (·.1) := by rw [hmem, g1]; rfl
      simp only [sparseOrder, map_present hm]
      exact H.set (f := fun o => match o with | some v => g v | none => g (L.head _).2)
        (by omega) k1 g3
  | remove k =>
    have hk : k < Sparse.keyRange N D := hok
    have hmem := sparse_mem_keys R H (hlt hk)
    obtain ⟨B, S⟩ := R
    obtain ⟨t2, B', e2, S'⟩ := S.remove_spec hc hcap hk
    simp only [Sparse.step, e2, bind_ok, pure_eq_ok, Except.ok.injEq, Prod.mk.injEq] at he
    obtain ⟨rfl, -⟩ := he
    rcases sparse_remove_shape hk (levelIndices_eq hc.valid k)
      (S.fetch (validPath_path (hlt hk)) (path_length _ _ _)) e2 with
      ⟨q0, q1, q2, q3⟩ | ⟨q0, kl, dl, q4, q5, q6, q7⟩
    · have : k ∉ L.map (·.1) := by rw [hmem, q1]; simp
      rw [q2, q3]
      simp only [sparseOrder, swapRemoveKey_absent this]
      exact H
    · have k1 := S.data.keyOf _ (path_length _ _ _) q0
      rw [unpath_path _ D k (hlt hk)] at k1
      rcases S.entry (hlt hk) with ⟨g1, g2⟩ | ⟨v, g1, g2, g3⟩
      · exact absurd g2 q0
      · rw [q6, q7]
        exact H.swapRemove (by omega) k1 g3 q5 q4

/-- The entries after a history. -/
def sparseEntries (ops : List (Sparse.Op α)) : List (Nat × α) := ops.foldl sparseOrder []

theorem sparse_run_order (hc : Cfg N D) (hcap : CapOk D cap) : ∀ (ops : List (Sparse.Op α))
    (t t' : ST α) (M : Nat → Option α) (L : List (Nat × α)) (outs : List (Option α × List α)),
    SRep N D cap dflt [] t M → (∀ op ∈ ops, op.Ok (Sparse.keyRange N D) dflt) →
    Always dflt (Fits (width N) D cap) M ops → Kv (usizeMod - 1) dflt t.keys t.values L →
    Sparse.run N D t ops = .ok (t', outs) →
    Kv (usizeMod - 1) dflt t'.keys t'.values (ops.foldl sparseOrder L) := by
  intro ops
  induction ops with
  | nil => intro t t' M L outs _ _ _ H he; cases he; exact H
  | cons op ops ih =>
    intro t t' M L outs R hr hb H he
    obtain ⟨t1, e1, R1⟩ := Sparse.step_spec hc hcap R (hr op (by simp)) (fits_occ_nil hb.2.head)
    simp only [Sparse.run, e1, bind_ok] at he
    obtain ⟨⟨t2, os⟩, e2, he⟩ := bind_inv he
    cases he
    exact ih t1 t2 _ _ os R1 (fun o ho => hr o (by simp [ho])) hb.2
      (sparse_step_order hc hcap R (hr op (by simp)) (fits_occ_nil hb.2.head) H e1) e2

/-- **C51**, SparseTree: the same order (`get_mut` writes in place). -/
theorem C51_sparse_order {ops : List (Sparse.Op α)} (h : SparseHistory N D dflt ops)
    (hr : SparseReached N D dflt ops t) :
    Sparse.keyValues t =
      .ok ((sparseEntries ops).map (·.1), (sparseEntries ops).map fun e => some e.2) := by
  obtain ⟨outs, e1⟩ := hr
  have H0 : Kv (usizeMod - 1) dflt (Sparse.default α N D dflt).keys (Sparse.default α N D dflt).values
      ([] : List (Nat × α)) := ⟨rfl, rfl, List.Pairwise.nil⟩
  have H := sparse_run_order h.cfg (idxCap_ok D) ops _ t emptyMap [] outs
    ⟨_, default_ss h.cfg.pos (idxCap_ok D).one⟩ h.ok h.fits H0 e1
  unfold Sparse.keyValues
  rw [H.keys, H.data, if_pos ⟨by simp, by simp⟩]
  rfl

example : sparseEntries [.insert 1 10, .insert 2 20, .insert 3 30, .remove 1, .getMut 2 (· + 1),
    .getMut 7 (· + 1), (.insert 1 11 : Sparse.Op Nat)] = [(3, 30), (2, 21), (1, 11)] := by decide

end

/-! ## The order of destruction -/

theorem dense_dropSlice_some {α : Type} (vs : List α) : Dense.dropSlice (vs.map some) = .ok vs := by
  induction vs with
  | nil => rfl
  | cons v vs ih => simp only [List.map_cons, Dense.dropSlice, unwrapU, bind_ok, ih, pure_eq_ok]

theorem sparse_dropSlice_some {α : Type} (vs : List α) : Sparse.dropSlice (vs.map some) = .ok vs := by
  induction vs with
  | nil => rfl
  | cons v vs ih => simp only [List.map_cons, Sparse.dropSlice, unwrapU, bind_ok, ih, pure_eq_ok]

theorem map_some_fun {α : Type} (L : List (Nat × α)) : L.map (fun e => some e.2) = (L.map (·.2)).map some := by
  rw [List.map_map]; rfl

/-- **C51**: dropping a DenseTree destroys the values in the order of `key_values()`. -/
theorem C51_dense_drop_order {α : Type} {D : Nat} {ops : List (Dense.Op α)} (h : DenseHistory D ops) {t : Dense.DT α}
    (hr : DenseReached D ops t) :
    ∃ heap', Dense.dropImpl D t = .ok ((denseEntries ops).map (·.2), heap') ∧ ∀ a, heap'.node a = none := by
  obtain ⟨vs, heap', e, -, hn⟩ := C17_drop h hr
  refine ⟨heap', ?_, hn⟩
  have hk := C51_dense_order h hr
  rw [map_some_fun] at hk
  have he := e
  unfold Dense.keyValues at hk
  split at hk
  · next hl =>
    simp only [Except.ok.injEq, Prod.mk.injEq] at hk
    unfold Dense.dropImpl at he
    rw [if_pos hl.2, hk.2, dense_dropSlice_some] at he
    simp only [bind_ok] at he
    obtain ⟨h1, g1, g2⟩ := bind_inv he
    cases g2
    exact e
  · cases hk

/-- **C51**: dropping a SparseTree destroys the default value, if there is one, then the values in the order of
`key_values()`. -/
theorem C51_sparse_drop_order {α : Type} {N D : Nat} {dflt : Option α} {ops : List (Sparse.Op α)} {t : Sparse.ST α}
    (h : SparseHistory N D dflt ops) (hr : SparseReached N D dflt ops t) :
    Sparse.dropImpl dflt.isSome t = .ok (dflt.toList ++ (sparseEntries ops).map (·.2)) := by
  obtain ⟨vs, e, -⟩ := C26_drop h hr
  rw [e]
  have hk := C51_sparse_order h hr
  rw [map_some_fun] at hk
  have he := e
  unfold Sparse.keyValues at hk
  split at hk
  · next hl =>
    simp only [Except.ok.injEq, Prod.mk.injEq] at hk
    unfold Sparse.dropImpl at he
    cases dflt with
    | none =>
      simp only [Option.isSome_none, Bool.false_eq_true, if_false] at he
      rw [if_pos hl.2, hk.2, sparse_dropSlice_some] at he
      simpa using he.symm
    | some d =>
      simp only [Option.isSome_some, if_true, Nat.zero_le, List.drop_zero] at he
      cases hv : t.values with
      | nil => rw [hv] at hl; simp at hl
      | cons v0 rest =>
        rw [hv] at he hk
        simp only [List.drop_succ_cons, List.drop_zero] at hk
        rw [hk.2] at he
        obtain ⟨v, g1, g2⟩ := bind_inv he
        obtain ⟨r, g3, g4⟩ := bind_inv g2
        rw [sparse_dropSlice_some] at g3
        cases g3
        cases g4
        rfl
  · cases hk

/-- `remove` moves the last entry into the freed place, so it is destroyed there. -/
example : DenseReached 2 exOps exD ∧ (denseEntries exOps).map (·.2) = [56, 72, 202] ∧
    (Dense.dropImpl 2 exD).map (·.1) = .ok [56, 72, 202] ∧
    SparseReached 2 2 (some 9) exOpsS exS ∧ Sparse.dropImpl true exS = .ok (9 :: (sparseEntries exOpsS).map (·.2)) :=
  ⟨exD_reached, by decide +kernel, by decide +kernel, exS_reached, by decide +kernel⟩

end Hibit.Props
