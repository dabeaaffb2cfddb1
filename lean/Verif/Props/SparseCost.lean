import Verif.Sparse.Cost
import Verif.Props.Overflow
/-!
# Property C70: which blocks of the level storage one SparseTree operation writes

Specification: `Neighbour`, `SameBlocksBut`.
-/
namespace Hibit.Props
open Hibit Hibit.Sparse

section
variable {α : Type} {N D : Nat} {dflt : Option α} {ops : List (Op α)} {t : ST α}

/-- A stored key `j ≠ k` lies in the same aligned range of `width^(D - n)` keys as `k`. -/
def Neighbour (W D n k : Nat) (M : Nat → Option α) : Prop :=
  ∃ j, j < W ^ D ∧ j ≠ k ∧ (M j).isSome = true ∧ j / W ^ (D - n) = k / W ^ (D - n)

/-- Of the existing blocks of level `m` all but at most `c` are the same in `t'`, and the level has
got `g` blocks longer. -/
def SameBlocksBut (c g m : Nat) (t t' : ST α) : Prop :=
  ∃ (L L' : Level) (as : List Nat), t.levels[m]? = some L ∧ t'.levels[m]? = some L' ∧ as.length ≤ c ∧
    L'.blocks.length = L.blocks.length + g ∧
    ∀ b, b < L.blocks.length → b ∉ as → L'.blocks[b]? = L.blocks[b]?

theorem Always.prefix {P : (Nat → Option α) → Prop} : ∀ (ops : List (Op α)) (M : Nat → Option α)
    (op : Op α), Always dflt P M (ops ++ [op]) →
    Always dflt P M ops ∧ P (op.spec dflt (specRun dflt M ops).1).1
  | [], M, op, h => ⟨h.1, h.2⟩
  | o :: ops, M, op, h => by
    obtain ⟨h1, h2⟩ := Always.prefix ops (o.spec dflt M).1 op h.2
    exact ⟨⟨h.1, h1⟩, h2⟩

/-- **C70**, `insert` and `get_or_insert`. Of a stored key: no block of any level is written. Of a new
key: in each level at most one of the existing blocks is written and at most one block is appended;
level `m` is not touched at all if the key's range of `width^(D-m-1)` keys already holds a key, and no
block is appended to it if the range of `width^(D-m)` keys does (nor to the root level). -/
theorem C70_insert {op : Op α} (h : SparseHistory N D dflt (ops ++ [op]))
    (hr : SparseReached N D dflt ops t) {k : Nat}
    (hop : (∃ v, op = .insert k v) ∨ ∃ d g, op = .getOrInsert k d g) {t' : ST α}
    {o : Option α × List α} (he : step N D t op = .ok (t', o)) :
    let M := (specRun dflt emptyMap ops).1
    (M k ≠ none → t'.levels = t.levels) ∧
    (M k = none → ∀ m, m < D →
      (Neighbour (width N) D (m + 1) k M → t'.levels[m]? = t.levels[m]?) ∧
      (m = 0 ∨ Neighbour (width N) D m k M → SameBlocksBut 1 0 m t t') ∧
      ∃ g, g ≤ 1 ∧ SameBlocksBut 1 g m t t') := by
  intro M
  have hf := Always.prefix ops emptyMap op h.fits
  have h' : SparseHistory N D dflt ops := ⟨h.cfg, fun o ho => h.ok o (by simp [ho]), hf.1⟩
  obtain ⟨B, S⟩ := h'.rep hr
  have hcap := idxCap_ok D
  have hkr : k < keyRange N D := by
    have := h.ok op (by simp)
    rcases hop with ⟨v, rfl⟩ | ⟨d, g, rfl⟩ <;> exact this
  have hk := keyRange_lt hkr
  have hshape : ∃ ins v out, getOrInsertImpl N D t k ins v = .ok out ∧
      t'.levels = out.tree.levels := by
    rcases hop with ⟨v, rfl⟩ | ⟨d, g, rfl⟩
    · simp only [step, Sparse.insert] at he
      rw [indexFrom_eq, if_pos hkr] at he
      obtain ⟨out, e1, he⟩ := bind_inv he
      cases he
      exact ⟨_, _, out, e1, rfl⟩
    · simp only [step, getOrInsert] at he
      rw [indexFrom_eq, if_pos hkr] at he
      obtain ⟨out, e1, he⟩ := bind_inv he
      obtain ⟨⟨t2, v⟩, e3, he⟩ := bind_inv he
      cases he
      refine ⟨_, _, out, e1, ?_⟩
      unfold writeRef at e3
      obtain ⟨_, -, e3⟩ := bind_inv e3
      obtain ⟨_, -, e3⟩ := bind_inv e3
      obtain ⟨_, -, e3⟩ := bind_inv e3
      cases e3
      rfl
  obtain ⟨ins, v, out, e1, elv⟩ := hshape
  have hroom : ∀ n, n + 1 < D → B ((path (width N) D k).take (n + 1)) = 0 →
      liveCount (width N) (n + 1) B + 2 ≤ idxCap (n + 1) := by
    intro n hn hB
    have h1 := S.liveCount_room (n := n + 1) (by omega) (by omega) hk hB
      (M' := (op.spec dflt (specRun dflt emptyMap ops).1).1) (fun j _ h => by
        rw [occ_isSome] at h
        have hput : ∃ w, (op.spec dflt (specRun dflt emptyMap ops).1).1 =
            put (specRun dflt emptyMap ops).1 k (some w) := by
          rcases hop with ⟨v, rfl⟩ | ⟨d, g, rfl⟩ <;> exact ⟨_, rfl⟩
        obtain ⟨w, hw⟩ := hput
        rw [hw]
        unfold put
        split
        · rfl
        · next hne =>
          rcases h with (h | h) | h
          · exact h
          · simp at h
          · exact absurd h hne)
    have h2 := hf.2 (n + 1) (by omega) (by omega)
    omega
  have hcost := S.insert_cost h.cfg hcap hk hroom e1
  rw [← elv] at hcost
  have hlive : ∀ n, 1 ≤ n → n ≤ D → (Neighbour (width N) D n k M ∨ M k ≠ none) →
      B ((path (width N) D k).take n) ≠ 0 := by
    intro n h1 hn hh
    rw [take_path hk hn]
    rcases hh with ⟨j, j1, -, j3, j4⟩ | hh
    · rw [← j4]; exact S.live_of h1 hn j1 j3
    · exact S.live_of h1 hn hk (by
        cases hM : M k with
        | none => exact absurd hM hh
        | some v => rw [show (specRun dflt emptyMap ops).1 k = some v from hM]; rfl)
  refine ⟨fun hM => ?_, fun hM m hm => ?_⟩
  · obtain ⟨t2, e2, B2, S2⟩ := step_spec h.cfg hcap ⟨B, S⟩ (h.ok op (by simp)) (fits_occ_nil hf.2)
    rw [he] at e2
    simp only [Except.ok.injEq, Prod.mk.injEq] at e2
    obtain ⟨rfl, -⟩ := e2
    apply List.ext_getElem?
    intro m
    by_cases hm : m < D
    · obtain ⟨L, hL, -⟩ := S.lv.get hm
      obtain ⟨L', g1, g2, -⟩ := hcost m L hL
      rw [g1, g2 (hlive (m + 1) (by omega) (by omega) (.inr hM)), hL]
    · rw [List.getElem?_eq_none (by rw [S2.lv.len]; omega),
        List.getElem?_eq_none (by rw [S.lv.len]; omega)]
  · obtain ⟨L, hL, -⟩ := S.lv.get hm
    obtain ⟨L', g1, g2, a, g, g3, g4, g5⟩ := hcost m L hL
    have hbut : SameBlocksBut 1 g m t t' := ⟨L, L', [a], hL, g1, by simp, g4.1, fun b hb hne => g4.2 b hb (by simpa using hne)⟩
    refine ⟨fun hn => ?_, fun hn => ?_, g, g3, hbut⟩
    · rw [g1, g2 (hlive (m + 1) (by omega) (by omega) (.inl hn)), hL]
    · have : g = 0 := by
        apply g5
        by_cases h0 : m = 0
        · exact .inl h0
        · exact .inr (hlive m (by omega) (by omega) (.inl (hn.resolve_left h0)))
      rw [← this]; exact hbut

/-- **C70**, `remove`: no level grows or shrinks. Of an absent key: nothing changes. Of a stored key: in
each level at most one block is written, two in the last level; level `m` above the last one is not
touched if the key's range of `width^(D-m-1)` keys holds another key. -/
theorem C70_remove (h : SparseHistory N D dflt ops) (hr : SparseReached N D dflt ops t) {k : Nat}
    (hk : k < keyRange N D) {t' : ST α} {o : Option α} (he : remove N D t k = .ok (t', o)) :
    let M := (specRun dflt emptyMap ops).1
    (M k = none → t' = t) ∧
    (∀ m, m + 1 < D → SameBlocksBut 1 0 m t t' ∧
      (Neighbour (width N) D (m + 1) k M → t'.levels[m]? = t.levels[m]?)) ∧
    SameBlocksBut 2 0 (D - 1) t t' := by
  intro M
  obtain ⟨B, S⟩ := h.rep hr
  obtain ⟨c1, c2⟩ := S.remove_cost h.cfg (idxCap_ok D) hk he
  have hpos := h.cfg.pos
  refine ⟨c1, fun m hm => ?_, ?_⟩
  · obtain ⟨L, hL, -⟩ := S.lv.get (n := m) (by omega)
    obtain ⟨L', g1, g2, g3, as, g4, g5⟩ := c2 m L hL
    rw [if_neg (by omega)] at g4
    refine ⟨⟨L, L', as, hL, g1, g4, g2, g5⟩, fun hn => ?_⟩
    rw [g1, g3 hm hn, hL]
  · obtain ⟨L, hL, -⟩ := S.lv.get (n := D - 1) (by omega)
    obtain ⟨L', g1, g2, -, as, g4, g5⟩ := c2 (D - 1) L hL
    rw [if_pos (by omega)] at g4
    exact ⟨L, L', as, hL, g1, g4, g2, g5⟩

/-- **C70**, all other operations write no block. -/
theorem C70_other {op : Op α} (h : ∀ k, (∀ v, op ≠ .insert k v) ∧ (∀ d g, op ≠ .getOrInsert k d g) ∧ op ≠ .remove k)
    {t' : ST α} {o : Option α × List α} (he : step N D t op = .ok (t', o)) : t'.levels = t.levels := by
  cases op with
  | insert k v => exact absurd rfl ((h k).1 v)
  | getOrInsert k d g => exact absurd rfl ((h k).2.1 d g)
  | remove k => exact absurd rfl (h k).2.2
  | get k => simp only [step] at he; obtain ⟨_, -, he⟩ := bind_inv he; cases he; rfl
  | getMut k g =>
    simp only [step] at he
    obtain ⟨o, -, he⟩ := bind_inv he
    cases o with
    | none => cases he; rfl
    | some i =>
      obtain ⟨⟨t2, v⟩, e3, he⟩ := bind_inv he
      cases he
      unfold writeRef at e3
      obtain ⟨_, -, e3⟩ := bind_inv e3
      obtain ⟨_, -, e3⟩ := bind_inv e3
      obtain ⟨_, -, e3⟩ := bind_inv e3
      cases e3
      rfl
  | getOrDefault k => simp only [step] at he; obtain ⟨_, -, he⟩ := bind_inv he; cases he; rfl
  | mutValues g =>
    simp only [step] at he
    obtain ⟨t2, e, he⟩ := bind_inv he
    cases he
    unfold mutValues at e
    obtain ⟨⟨_, _⟩, -, e⟩ := bind_inv e
    cases e
    rfl

/-! ### Concrete instances -/

/-- After `exOpsS` (keys 5, 128, 200; width 128, depth 2) the key 201 has the neighbour 200 at level 1. -/
theorem ex_neighbour : Neighbour 128 2 1 201 (specRun (some 9) emptyMap exOpsS).1 :=
  ⟨200, by decide, by decide, by decide, by decide⟩

/-- Inserting it writes one block of level 1 and nothing else. -/
example : ∃ t' o, step 2 2 exS (.insert 201 3) = .ok (t', o) ∧ t'.levels[0]? = exS.levels[0]? ∧
    SameBlocksBut 1 0 1 exS t' := by
  have hh : SparseHistory 2 2 (some 9) (exOpsS ++ [.insert 201 3]) := by
    refine .of_small ⟨by decide, by decide, by decide⟩ (by decide) fun op hop => ?_
    rcases List.mem_append.1 hop with h | h
    · exact exOpsS_history.ok op h
    · rw [List.mem_singleton.1 h]
      show 201 < keyRange 2 2
      decide
  obtain ⟨t', o, e, -⟩ := C19_independent (k := 201) hh exS_reached rfl
  have c := (C70_insert hh exS_reached (k := 201) (.inl ⟨3, rfl⟩) e).2 (by decide)
  exact ⟨t', o, e, (c 0 (by decide)).1 ex_neighbour, (c 1 (by decide)).2.1 (.inr ex_neighbour)⟩

/-- The number of blocks of every level, before and after: the first key of a depth-3 tree appends one
block to each level below the root; a second key in the same range none; removing them shrinks nothing,
and the next key, far away, reuses the freed blocks. -/
example : (do
    let r ← run 1 3 (Sparse.default Nat 1 3 none) [.insert 5 1]
    let r2 ← run 1 3 r.1 [.insert 6 2]
    let r3 ← run 1 3 r2.1 [.remove 5, .remove 6]
    let r4 ← run 1 3 r3.1 [.insert 260000 1]
    let blocks := fun (t : ST Nat) => t.levels.map fun L => L.blocks.length
    return (blocks r.1, blocks r2.1, blocks r3.1, blocks r4.1) : R _) =
    .ok ([1, 2, 2], [1, 2, 2], [1, 2, 2], [1, 2, 2]) := by decide +kernel

end

end Hibit.Props
