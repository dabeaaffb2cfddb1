import Verif.Props.MatFail
import Verif.Dense.Wrapped
/-!
# Property C74: how many elements a DenseTree can hold

Data indices are stored as `u32` (dense_tree.rs:26-28 with the TODO "On insert check that capacity does
not exceeds DataIndex capacity"), and index 0 is the uninitialised element. `card n M` is the number of
keys of the map `M` below `n`.
-/
namespace Hibit.Props
open Hibit Hibit.Dense

section
variable {α : Type} {D : Nat} {ops : List (Op α)} {t : DT α} {k : Nat}

/-- **C74**, complete characterisation: after every supported history, inserting a key that is not
stored succeeds without destroying a value; the key can be looked up afterwards if and only if the tree
held fewer than 2^32 - 1 elements before. -/
theorem C74_capacity_partial (h : DenseHistory D ops) (hr : DenseReached D ops t) (hk : k < 64 ^ D)
    (hnew : (specRun emptyMap ops).1 k = none) (v : α) :
    ∃ out, Dense.insert D t k v = .ok out ∧ out.dropped = [] ∧
      ((impl α D).get out.tree k = .ok (some v) ↔
        card (64 ^ D) (specRun emptyMap ops).1 < 2 ^ 32 - 1) := by
  have R := h.rep hr
  have hc := R.card_eq
  have h1 := h.depth_pos
  have h9 := h.depth_le
  by_cases hroom : t.data.length < 2 ^ 32
  · obtain ⟨out, e, R', -, e2, -⟩ := getOrInsertImpl_spec R h1 h9 hk true v (fun _ => hroom)
    refine ⟨out, ?_, by rw [e2, hnew]; rfl, ?_⟩
    · unfold Dense.insert
      rw [indexFrom_ok h9, if_pos hk]
      exact e
    · rw [get_spec R' h1 h9 hk]
      simp
      omega
  · have hb : t.data.length ≤ 2 ^ 32 := by
      obtain ⟨loc, K, S⟩ := R; exact S.data.bound
    obtain ⟨out, e, e2, -, -, e5, -⟩ := insert_full R h1 h9 hk hnew (by omega) v
    refine ⟨out, e, e2, ?_⟩
    rw [get_of_treeData h9 h1 hk, e5]
    constructor
    · intro h; cases h
    · intro h; omega

/-- **C74** fails: after every supported history that leaves 2^32 - 1 elements, inserting *any* further
key `k` succeeds, but then

* `get(k)` finds nothing and `remove(k)` removes nothing,
* `get_unchecked(k)` is undefined behaviour, and so are a second `insert(k, _)` and `get_or_insert(k)`
  (they use the uninitialised element 0),
* although `key_values` lists `k` with its value as the last element.

Every other key is still answered correctly by `get`. -/
theorem C74_fails (h : DenseHistory D ops) (hr : DenseReached D ops t)
    (hfull : card (64 ^ D) (specRun emptyMap ops).1 = 2 ^ 32 - 1) (hk : k < 64 ^ D)
    (hnew : (specRun emptyMap ops).1 k = none) (v : α) :
    ∃ out, Dense.insert D t k v = .ok out ∧ out.dropped = [] ∧
      (impl α D).get out.tree k = .ok none ∧
      (2 ≤ D → Dense.remove D out.tree k = .ok (out.tree, none)) ∧
      (impl α D).getU out.tree k = .error .ub ∧
      (∀ w, Dense.insert D out.tree k w = .error .ub) ∧
      (∀ w, Dense.getOrInsert D out.tree k w = .error .ub) ∧
      (∃ ks vs, keyValues out.tree = .ok (ks, vs) ∧ ks.getLast? = some k ∧ vs.getLast? = some (some v)) ∧
      ∀ k', k' < 64 ^ D → k' ≠ k →
        (impl α D).get out.tree k' = .ok ((specRun emptyMap ops).1 k') := by
  have R := h.rep hr
  have hc := R.card_eq
  have h1 := h.depth_pos
  have h9 := h.depth_le
  have hl : t.keys.length = t.data.length := by
    obtain ⟨loc, K, S⟩ := R; exact S.data.len
  obtain ⟨out, e, e2, e3, e4, e5, e6, e7, e8⟩ := insert_full R h1 h9 hk hnew (by omega) v
  refine ⟨out, e, e2, ?_, e7, ?_, ?_, ?_, ?_, ?_⟩
  · rw [get_of_treeData h9 h1 hk, e5]
  · unfold Impl.getU
    show (do let indices ← levelIndices 1 D k; (impl α D).dataU out.tree k indices) = _
    rw [levelIndices_ok h1 h9]
    show (do let d ← treeData D out.tree k (path 64 D k); unwrapU d) = _
    rw [e5]; rfl
  · intro w
    unfold Dense.insert
    rw [indexFrom_ok h9, if_pos hk]
    exact e8 true w
  · intro w
    unfold Dense.getOrInsert
    rw [indexFrom_ok h9, if_pos hk]
    exact e8 false w
  · unfold keyValues
    rw [e3, e4, if_pos (by simp)]
    refine ⟨_, _, rfl, ?_, ?_⟩
    · rw [List.drop_append_of_le_length (by omega)]; simp
    · rw [List.drop_append_of_le_length (by omega)]; simp
  · intro k' hk' hne
    rw [get_of_treeData h9 h1 hk', e6 k' hk' hne]

/-- The insertions of the keys `ks` with the values `vs`. -/
def insertOps (ks : List Nat) (vs : List α) : List (Op α) := (ks.zip vs).map fun kv => .insert kv.1 kv.2

theorem run_wrapped {t0 : DT α} {K0 : List Nat → Option Nat} (h1 : 1 ≤ D) (h9 : D ≤ 9)
    (hfull : t0.data.length = 2 ^ 32) : ∀ (ks' : List Nat) (vs' : List α) (ks : List Nat) (vs : List α)
    (t : DT α) (loc K : List Nat → Option Nat), Wrapped D t0 t loc K K0 ks vs →
    ks'.length = vs'.length → (ks ++ ks').length ≤ 2 ^ 32 → (∀ k ∈ ks ++ ks', k < 64 ^ D) →
    (ks ++ ks').Nodup → (∀ k ∈ ks', K0 (path 64 D k) = none) →
    ∃ t' loc' K', run D t (insertOps ks' vs') = .ok (t', List.replicate ks'.length (none, [])) ∧
      Wrapped D t0 t' loc' K' K0 (ks ++ ks') (vs ++ vs') := by
  intro ks'
  induction ks' with
  | nil =>
    intro vs' ks vs t loc K W hl _ _ _ _
    cases vs' with
    | nil => exact ⟨t, loc, K, rfl, by simpa using W⟩
    | cons a l => simp at hl
  | cons k ks' ih =>
    intro vs' ks vs t loc K W hl hb hr hn hK
    cases vs' with
    | nil => simp at hl
    | cons v vs' =>
      have hnk : k ∉ ks := by
        intro hm
        exact (List.nodup_append.1 hn).2.2 k hm k (by simp) rfl
      obtain ⟨out, loc1, K1, e1, e2, W1⟩ := W.step h1 h9 hfull (by simp at hb; omega)
        (fun k' hk' => hr k' (by simp [hk'])) (hr k (by simp)) hnk (hK k (by simp)) v
      have ha : ks ++ [k] ++ ks' = ks ++ k :: ks' := by simp
      obtain ⟨t', loc', K', f1, f2⟩ := ih vs' (ks ++ [k]) (vs ++ [v]) out.tree loc1 K1 W1
        (by simpa using hl) (by rw [ha]; exact hb) (by rw [ha]; exact hr) (by rw [ha]; exact hn)
        (fun k' hk' => hK k' (by simp [hk']))
      refine ⟨t', loc', K', ?_, by simpa using f2⟩
      show run D t (.insert k v :: insertOps ks' vs') = _
      unfold run step
      simp only [e1, bind_ok, e2, f1, pure_eq_ok, List.length_cons, List.replicate_succ]

/-- **C74** fails beyond repair: fill the tree (2^32 - 1 elements), then insert further new keys
`ks[0], ks[1], …` (at most 2^32): all insertions succeed. From the second on they share their entry with
an older element: the key `ks[j]` (`j ≥ 1`) with the `j`-th key listed by `key_values()` before, `own`.
`get(ks[j])` finds nothing, and inserting `ks[j]` *again* with a value `w` destroys the value of `own`
and makes `get(own)` return `w` – an insertion changes the value of another key. -/
theorem C74_fails_alias (h : DenseHistory D ops) (hr : DenseReached D ops t)
    (hfull : card (64 ^ D) (specRun emptyMap ops).1 = 2 ^ 32 - 1) {ks : List Nat} {vs : List α}
    (hlen : ks.length = vs.length) (hmax : ks.length ≤ 2 ^ 32) (hks : ∀ k ∈ ks, k < 64 ^ D)
    (hnd : ks.Nodup) (hnew : ∀ k ∈ ks, (specRun emptyMap ops).1 k = none) :
    ∃ t', run D t (insertOps ks vs) = .ok (t', List.replicate ks.length (none, [])) ∧
      ∀ (j k : Nat), 1 ≤ j → ks[j]? = some k →
        ∃ (own : Nat) (v : α) (kl : List Nat) (vl : List (Option α)),
          keyValues t = .ok (kl, vl) ∧ kl[j - 1]? = some own ∧ own ≠ k ∧
          (specRun emptyMap ops).1 own = some v ∧
          (impl α D).get t' own = .ok (some v) ∧ (impl α D).get t' k = .ok none ∧
          ∀ w, ∃ out, Dense.insert D t' k w = .ok out ∧ out.dropped = [v] ∧
            (impl α D).get out.tree own = .ok (some w) ∧ (impl α D).get out.tree k = .ok none := by
  have R := h.rep hr
  have hc := R.card_eq
  have h1 := h.depth_pos
  have h9 := h.depth_le
  obtain ⟨loc, K, S⟩ := R
  have hdl : t.data.length = 2 ^ 32 := by omega
  have hK0 : ∀ k ∈ ks, K (path 64 D k) = none := by
    intro k hk
    have hd := S.den k
    rw [if_pos (hks k hk), hnew k hk] at hd
    cases hK : K (path 64 D k) with
    | none => rfl
    | some d =>
      obtain ⟨_, ov, g2⟩ := S.data.value hK
      rw [hK] at hd
      simp [g2] at hd
  obtain ⟨t', loc', K', e1, W⟩ := run_wrapped h1 h9 hdl ks vs [] [] t loc K
    ⟨S.tree, by simp, by simp, rfl, fun j k hj => by simp at hj, fun _ _ _ => rfl⟩ hlen
    (by simpa using hmax) (by simpa using hks) (by simpa using hnd) hK0
  rw [List.nil_append, List.nil_append] at W
  refine ⟨t', e1, ?_⟩
  intro j k hj hkj
  obtain ⟨hjl, -⟩ := List.getElem?_eq_some_iff.1 hkj
  have hkm := List.mem_of_getElem? hkj
  have hk := hks k hkm
  obtain ⟨P, hP⟩ := S.data.surj j hj (by rw [S.data.len]; omega)
  obtain ⟨hPv, hPl⟩ := S.tree.kvalid _ _ hP
  obtain ⟨-, hkey⟩ := S.data.keyOf _ _ hP
  obtain ⟨hd1, v, hdat⟩ := S.data.value hP
  have hup : path 64 D (unpath 64 P) = P := by
    rw [← hPl]; exact path_unpath hPv
  have hown : unpath 64 P < 64 ^ D := by
    rw [← hPl]; exact unpath_lt hPv
  have hMown : (specRun emptyMap ops).1 (unpath 64 P) = some v := by
    rw [S.den, if_pos hown, hup, hP]; simp [hdat]
  have hne : unpath 64 P ≠ k := by
    intro e
    rw [e, hnew k hkm] at hMown
    cases hMown
  have hnot : unpath 64 P ∉ ks := by
    intro hm
    rw [hnew _ hm] at hMown
    cases hMown
  have hKown : K' (path 64 D (unpath 64 P)) = some j := by
    rw [W.old _ hown hnot, hup, hP]
  have hKk := W.new j k hkj
  have hkeys' : t'.keys[j]? = some (unpath 64 P) := by
    rw [W.keys, List.getElem?_append_left (by rw [S.data.len]; omega)]; exact hkey
  have hdat' : t'.data[j]? = some (some v) := by
    rw [W.data, List.getElem?_append_left (by omega)]; exact hdat
  refine ⟨unpath 64 P, v, t.keys.drop 1, t.data.drop 1, ?_, ?_, hne, hMown, ?_, ?_, ?_⟩
  · unfold keyValues
    rw [if_pos ⟨by rw [S.data.len]; omega, by omega⟩]
  · rw [List.getElem?_drop, show 1 + (j - 1) = j by omega]; exact hkey
  · rw [get_of_treeData h9 h1 hown, treeData_of_K W.tree h1 hKown hkeys' hdat', if_pos rfl]; rfl
  · rw [get_of_treeData h9 h1 hk, treeData_of_K W.tree h1 hKk hkeys' hdat', if_neg hne]
  · intro w
    obtain ⟨out, loc2, f1, f2, -, f4, f5, T2⟩ := insert_again W.tree h1 h9 hk hKk hdat' w
    have hdat2 : out.tree.data[j]? = some (some w) := by
      rw [f4, List.getElem?_set_self (by rw [W.data]; simp; omega)]
    have hkeys2 : out.tree.keys[j]? = some (unpath 64 P) := by rw [f5]; exact hkeys'
    refine ⟨out, f1, f2, ?_, ?_⟩
    · rw [get_of_treeData h9 h1 hown, treeData_of_K T2 h1 hKown hkeys2 hdat2, if_pos rfl]; rfl
    · rw [get_of_treeData h9 h1 hk, treeData_of_K T2 h1 hKk hkeys2 hdat2, if_neg hne]

/-- The insertions of the keys below `n`. -/
def fillOps (n : Nat) (v : α) : List (Op α) := (List.range n).map fun k => .insert k v

theorem fillOps_spec (n : Nat) (v : α) (k : Nat) :
    (specRun emptyMap (fillOps n v)).1 k = if k < n then some v else none := by
  have key : ∀ (l : List Nat) (M : Nat → Option α),
      (specRun M (l.map fun k => Op.insert k v)).1 k = if k ∈ l then some v else M k := by
    intro l
    induction l with
    | nil => intro M; simp [specRun]
    | cons a l ih =>
      intro M
      simp only [List.map_cons, specRun, Op.spec]
      rw [ih]
      by_cases h : k ∈ l
      · simp [h]
      · by_cases e : k = a
        · simp [put, e]
        · simp [put, h, e]
  unfold fillOps
  rw [key]
  simp [emptyMap]

theorem card_fill (n : Nat) (v : α) : ∀ m, card m (specRun emptyMap (fillOps n v)).1 = min m n := by
  intro m
  induction m with
  | zero => simp [card, keysOf]
  | succ m ih =>
    rw [card_succ, ih, fillOps_spec]
    split
    · simp; omega
    · simp; omega

theorem fillOps_history {n : Nat} (h6 : 6 ≤ D) (h9 : D ≤ 9) (hn : n < 2 ^ 32) (v : α) :
    DenseHistory D (fillOps n v) := by
  have : 64 ^ 6 ≤ 64 ^ D := Nat.pow_le_pow_right (by decide) h6
  refine .of_length (by omega) h9 (by simpa [fillOps] using hn) ?_
  intro op hop
  simp only [fillOps, List.mem_map, List.mem_range] at hop
  obtain ⟨k, hk, rfl⟩ := hop
  show k < 64 ^ D
  omega

/-- The hypotheses of `C74_fails` are met at every depth at which 2^32 keys exist (6 – 9), with every
value type: fill the tree with the keys `0 .. 2^32 - 2`, then insert `2^32 - 1`. -/
theorem C74_fails_reachable (h6 : 6 ≤ D) (h9 : D ≤ 9) (v : α) :
    ∃ (ops : List (Op α)) (t : DT α), DenseHistory D ops ∧ DenseReached D ops t ∧
      card (64 ^ D) (specRun emptyMap ops).1 = 2 ^ 32 - 1 ∧
      (specRun emptyMap ops).1 (2 ^ 32 - 1) = none ∧
      ∃ out, Dense.insert D t (2 ^ 32 - 1) v = .ok out ∧
        (impl α D).get out.tree (2 ^ 32 - 1) = .ok none := by
  generalize hn : 2 ^ 32 - 1 = n
  have hn' : n + 1 = 2 ^ 32 := by omega
  have : 64 ^ 6 ≤ 64 ^ D := Nat.pow_le_pow_right (by decide) h6
  have H := fillOps_history h6 h9 (show n < 2 ^ 32 by omega) v
  obtain ⟨t0, t, e0, e1, -⟩ := H.reach
  have hc : card (64 ^ D) (specRun emptyMap (fillOps n v)).1 = n := by rw [card_fill]; omega
  have hz : (specRun emptyMap (fillOps n v)).1 n = none := by rw [fillOps_spec, if_neg (by omega)]
  obtain ⟨out, f1, -, f2, -⟩ := C74_fails H ⟨t0, _, e0, e1⟩ (by rw [hc, hn]) (show n < 64 ^ D by omega) hz v
  exact ⟨_, t, H, ⟨t0, _, e0, e1⟩, hc, hz, out, f1, f2⟩

/-- The hypotheses of `C74_fails_alias` are met at every depth 6 – 9: in the tree holding
`0 .. 2^32 - 2`, after inserting `2^32 - 1` and `2^32`, some key `own` still has its value `v`; inserting
`2^32` a second time, with the value `w`, changes it to `w`. -/
theorem C74_alias_reachable (h6 : 6 ≤ D) (h9 : D ≤ 9) (v w : α) :
    ∃ (ops : List (Op α)) (t t' : DT α) (own : Nat) (out : InsOut α), DenseHistory D ops ∧
      DenseReached D ops t ∧ run D t (insertOps [2 ^ 32 - 1, 2 ^ 32] [v, v]) = .ok (t', [(none, []), (none, [])]) ∧
      own < 2 ^ 32 - 1 ∧ (impl α D).get t' own = .ok (some v) ∧ Dense.insert D t' (2 ^ 32) w = .ok out ∧
      (impl α D).get out.tree own = .ok (some w) := by
  rw [show (2 : Nat) ^ 32 = (2 ^ 32 - 1) + 1 by omega]
  rw [Nat.add_sub_cancel]
  generalize hn : 2 ^ 32 - 1 = n
  have hn' : n + 1 = 2 ^ 32 := by omega
  have : 64 ^ 6 ≤ 64 ^ D := Nat.pow_le_pow_right (by decide) h6
  have H := fillOps_history h6 h9 (show n < 2 ^ 32 by omega) v
  obtain ⟨t0, t, e0, e1, -⟩ := H.reach
  have hc : card (64 ^ D) (specRun emptyMap (fillOps n v)).1 = n := by rw [card_fill]; omega
  have hz : ∀ k, n ≤ k → (specRun emptyMap (fillOps n v)).1 k = none := by
    intro k hk; rw [fillOps_spec, if_neg (by omega)]
  obtain ⟨t', f1, f2⟩ := C74_fails_alias H ⟨t0, _, e0, e1⟩ (by rw [hc, hn]) (ks := [n, n + 1]) (vs := [v, v])
    rfl (by simp) (by intro k hk; simp at hk; omega) (by simp)
    (by intro k hk; simp at hk; exact hz k (by omega))
  obtain ⟨own, v0, kl, vl, -, -, -, g1, g2, -, g3⟩ := f2 1 (n + 1) (by omega) rfl
  obtain ⟨out, g4, -, g5, -⟩ := g3 w
  rw [fillOps_spec] at g1
  split at g1
  · cases g1
    exact ⟨_, t, t', own, out, H, ⟨t0, _, e0, e1⟩, f1, by assumption, g2, g4, g5⟩
  · cases g1

/-- `C74_capacity_partial` at a small tree: the new key 7 is found. -/
example : ∃ out, Dense.insert 2 exD 7 70 = .ok out ∧ out.dropped = [] ∧
    ((impl Nat 2).get out.tree 7 = .ok (some 70) ↔
      card (64 ^ 2) (specRun emptyMap exOps).1 < 2 ^ 32 - 1) :=
  C74_capacity_partial exOps_history exD_reached (by decide) (by decide) 70

end

end Hibit.Props
