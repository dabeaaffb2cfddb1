import Verif.Dense.Full
/-!
# DenseTree: insertions beyond the 2^32-nd entry of the data vector

`Wrapped D t0 t loc K K0 ks vs`: `t` is the full tree `t0` (2^32 entries, keys at the entries `K0`)
after inserting the new keys `ks` with the values `vs`; the entry of the `j`-th new key is recorded as
`j` (`data.len() as u32`, dense_tree.rs:167-171).
-/
namespace Hibit.Dense
open Hibit

variable {α : Type} {ex : List Nat → Prop} {D : Nat} {t t0 : DT α} {M : Nat → Option α}
variable {loc K K0 : List Nat → Option Nat} {ks : List Nat} {vs : List α}

/-- Reading a key whose cell holds `d`. -/
theorem treeData_of_K (T : TInv D t.heap t.root loc K) (h1 : 1 ≤ D) {k d key : Nat} {ov : Option α}
    (hK : K (path 64 D k) = some d) (hkey : t.keys[d]? = some key) (hdat : t.data[d]? = some ov) :
    treeData D t k (path 64 D k) =
      if key = k then (do let v ← unwrapU ov; return some v) else .ok none := by
  have hPl := path_length 64 D k
  generalize path 64 D k = Q at *
  rcases eq_nil_or_append Q with rfl | ⟨q, j, rfl⟩
  · simp at hPl; omega
  have hql : q.length + 1 = D := by simpa using hPl
  obtain ⟨aq, haq⟩ := T.klive _ _ _ hK
  have et := T.terminal_live h1 (i := j) haq hql
  have ei := T.idx haq hK
  unfold treeData
  simp only [et, bind_ok, ei, Cell.asIdx, getU_some hkey, getU_some hdat, pure_eq_ok]

/-- Inserting a key whose cell is vacant. -/
theorem insert_new (T : TInv D t.heap t.root loc K) (h1 : 1 ≤ D) (h9 : D ≤ 9) {k : Nat} (hk : k < 64 ^ D)
    (hK : K (path 64 D k) = none) (v : α) :
    ∃ out loc', insert D t k v = .ok out ∧ out.dropped = [] ∧ out.dataIndex = t.data.length ∧
      out.tree.data = t.data ++ [some v] ∧ out.tree.keys = t.keys ++ [k] ∧
      TInv D out.tree.heap out.tree.root loc'
        (upd K (path 64 D k) (some (t.data.length % 2 ^ 32))) := by
  have hPv := validPath_path hk
  have hPl := path_length 64 D k
  obtain ⟨w, loc', b, e1, T1, hb, hs, hl⟩ := insertWalk_spec T h9 h1 hPv hPl
  have hlev : levelIndices 1 D k = .ok (path 64 D k) := levelIndices_ok h1 h9
  generalize path 64 D k = P at *
  rcases eq_nil_or_append P with rfl | ⟨p, i, rfl⟩
  · simp at hPl; omega
  have hpl : p.length + 1 = D := by simpa using hPl
  have htk : (p ++ [i]).take (D - 1) = p := by
    rw [List.take_append_of_le_length (by omega), List.take_of_length_le (by omega)]
  rw [htk] at hb hs
  have hread := read_slot T1 hb hs
  have hlast : (p ++ [i]).getLast? = some i := by simp
  obtain ⟨hpv, hi⟩ := ValidPath.of_append hPv
  obtain ⟨n, hd, -, -, -, hrep⟩ := T1.rep.deref hb
  have hc := hrep.contains hi
  rw [cellsOf_term hpl, hK] at hc
  simp only [Option.map_none, Option.isSome_none] at hc
  obtain ⟨h', x, a', w', e2, e3, T2⟩ := insertTerm_spec T1 hPv hpl hb hs hK (t.data.length % 2 ^ 32)
  refine ⟨⟨⟨w'.heap, w'.root, t.data ++ [some v], t.keys ++ [k]⟩, t.data.length, [], true⟩, _,
    ?_, rfl, rfl, rfl, rfl, T2⟩
  unfold insert
  rw [indexFrom_ok h9, if_pos hk]
  simp only [bind_ok]
  unfold getOrInsertImpl
  simp only [hlev, bind_ok, e1, hread, hlast, unwrapU, hd, hc, Bool.false_eq_true, if_false,
    e2, e3, pure_eq_ok]

/-- Inserting a key whose cell holds `d` overwrites entry `d`, whatever key it belongs to. -/
theorem insert_again (T : TInv D t.heap t.root loc K) (h1 : 1 ≤ D) (h9 : D ≤ 9) {k d : Nat}
    (hk : k < 64 ^ D) (hK : K (path 64 D k) = some d) {old : α} (hd : t.data[d]? = some (some old))
    (v : α) :
    ∃ out loc', insert D t k v = .ok out ∧ out.dropped = [old] ∧ out.dataIndex = d ∧
      out.tree.data = t.data.set d (some v) ∧ out.tree.keys = t.keys ∧
      TInv D out.tree.heap out.tree.root loc' K := by
  have hPv := validPath_path hk
  have hPl := path_length 64 D k
  obtain ⟨w, loc', b, e1, T1, hb, hs, hl⟩ := insertWalk_spec T h9 h1 hPv hPl
  have hlev : levelIndices 1 D k = .ok (path 64 D k) := levelIndices_ok h1 h9
  generalize path 64 D k = P at *
  rcases eq_nil_or_append P with rfl | ⟨p, i, rfl⟩
  · simp at hPl; omega
  have hpl : p.length + 1 = D := by simpa using hPl
  have htk : (p ++ [i]).take (D - 1) = p := by
    rw [List.take_append_of_le_length (by omega), List.take_of_length_le (by omega)]
  rw [htk] at hb hs
  have hread := read_slot T1 hb hs
  have hlast : (p ++ [i]).getLast? = some i := by simp
  obtain ⟨hpv, hi⟩ := ValidPath.of_append hPv
  obtain ⟨n, hdr, -, -, -, hrep⟩ := T1.rep.deref hb
  have hc := hrep.contains hi
  rw [cellsOf_term hpl, hK] at hc
  simp only [Option.map_some, Option.isSome_some] at hc
  have hidx := T1.idx hb hK
  obtain ⟨hlt, -⟩ := List.getElem?_eq_some_iff.1 hd
  refine ⟨⟨⟨w.heap, w.root, t.data.set d (some v), t.keys⟩, d, [old], true⟩, loc',
    ?_, rfl, rfl, rfl, rfl, T1⟩
  unfold insert
  rw [indexFrom_ok h9, if_pos hk]
  simp only [bind_ok]
  unfold getOrInsertImpl
  simp only [hlev, bind_ok, e1, hread, hlast, unwrapU, hdr, hc, if_true, hidx, Cell.asIdx,
    getU_some hd, setU_ok _ hlt, pure_eq_ok]

structure Wrapped (D : Nat) (t0 t : DT α) (loc K K0 : List Nat → Option Nat) (ks : List Nat)
    (vs : List α) : Prop where
  tree : TInv D t.heap t.root loc K
  data : t.data = t0.data ++ vs.map some
  keys : t.keys = t0.keys ++ ks
  len : vs.length = ks.length
  new : ∀ (j k : Nat), ks[j]? = some k → K (path 64 D k) = some j
  old : ∀ k, k < 64 ^ D → k ∉ ks → K (path 64 D k) = K0 (path 64 D k)

theorem Wrapped.step (W : Wrapped D t0 t loc K K0 ks vs) (h1 : 1 ≤ D) (h9 : D ≤ 9)
    (hfull : t0.data.length = 2 ^ 32) (hroom : ks.length < 2 ^ 32) (hks : ∀ k ∈ ks, k < 64 ^ D)
    {k : Nat} (hk : k < 64 ^ D) (hn : k ∉ ks) (hK : K0 (path 64 D k) = none) (v : α) :
    ∃ out loc' K', insert D t k v = .ok out ∧ out.dropped = [] ∧ 
      Wrapped D t0 out.tree loc' K' K0 (ks ++ [k]) (vs ++ [v]) := by
  obtain ⟨out, loc', e1, e2, -, e4, e5, T⟩ := insert_new W.tree h1 h9 hk (by rw [W.old k hk hn, hK]) v
  have hl : t.data.length % 2 ^ 32 = ks.length := by
    rw [W.data]
    simp only [List.length_append, List.length_map, W.len, hfull]
    omega
  rw [hl] at T
  refine ⟨out, loc', _, e1, e2, T, ?_, ?_, by simp [W.len], ?_, ?_⟩
  · rw [e4, W.data]; simp
  · rw [e5, W.keys]; simp
  · intro j k' hj
    rw [getElem?_append_single] at hj
    split at hj
    · rename_i ej
      cases hj
      rw [upd_same, ej]
    · have hm := List.mem_of_getElem? hj
      rw [upd_ne _ _ (fun e => hn (path_injOn (hks k' hm) hk e ▸ hm))]
      exact W.new j k' hj
  · intro k' hk' hm
    simp only [List.mem_append, List.mem_singleton, not_or] at hm
    rw [upd_ne _ _ (fun e => hm.2 (path_injOn hk' hk e))]
    exact W.old k' hk' hm.1

end Hibit.Dense
