import Verif.Props.Trees
import Verif.Dense.MatFail
/-!
# Property C43: how far the failures of materialized trees go

`C43_fails_insert` and `C43_fails_remove` (`Verif/Props/Materialize.lean`) are single runs. The theorems
below are about *every* tree expression without exact hierarchy that can be materialized: which
insertions and removals turn which later lookups into undefined behaviour.
-/
namespace Hibit.Props
open Hibit Hibit.Dense

section
variable {S C α : Type}

/-- Selects with the checked `select_level_node` the nodes at depth `n`, `n + 1`, … with the indices
given, one below the other. -/
def selectDown (I : Impl S C α) (s : S) : Mask × C → Nat → List Nat → R (Mask × C)
  | mc, _, [] => .ok mc
  | mc, n, i :: p => do
    let mc ← I.select mc.2 s n i
    selectDown I s mc (n + 1) p

/-- The mask of the node with the coordinates `p`, read with a fresh cursor from the root down. -/
def nodeMask (I : Impl S C α) (s : S) (p : List Nat) : R Mask := do
  let c ← I.new s
  let mc ← I.select c s 0 0
  let mc ← selectDown I s mc 1 p
  return mc.1

theorem selectDown_spec {I : Impl S C α} {s : S} {T : TreeSpec α} {K : CursorRel C}
    (L : Lawful I s T K) : ∀ (q p : List Nat) (m : Mask) (c : C), ValidPath (width I.N) (p ++ q) →
      (p ++ q).length < I.D → (∀ j, m.bit j = T.bits p j) → K.pos c p →
      ∃ r, selectDown I s (m, c) (p.length + 1) q = .ok r ∧ ∀ j, r.1.bit j = T.bits (p ++ q) j := by
  intro q
  induction q with
  | nil => intro p m c _ _ hm _; exact ⟨_, rfl, by simpa using hm⟩
  | cons i q ih =>
    intro p m c hv hl hm hc
    have hvp : ValidPath (width I.N) (p ++ [i]) := fun x hx => hv x (by
      rcases List.mem_append.1 hx with h | h
      · exact List.mem_append.2 (.inl h)
      · rw [List.mem_singleton] at h
        subst h
        simp)
    obtain ⟨hp, hi⟩ := ValidPath.of_append hvp
    obtain ⟨m', c', e, -, hb, hpos⟩ := L.select_node c p i hc hp hi (by simp at hl; omega)
    obtain ⟨r, e1, e2⟩ := ih (p ++ [i]) m' c' (by simpa using hv) (by simpa using hl) hb
      (L.posC_pos _ _ hpos)
    refine ⟨r, ?_, by simpa using e2⟩
    unfold selectDown
    simp only [e, bind_ok]
    simpa using e1

theorem nodeMask_spec {I : Impl S C α} {s : S} {T : TreeSpec α} {K : CursorRel C}
    (L : Lawful I s T K) {p : List Nat} (hv : ValidPath (width I.N) p) (hl : p.length < I.D) :
    ∃ m, nodeMask I s p = .ok m ∧ ∀ j, m.bit j = T.bits p j := by
  obtain ⟨c, e0, h0⟩ := L.new_ok
  obtain ⟨m, c', e1, -, hb, hpos⟩ := L.select_root c 0 h0 rfl
  obtain ⟨r, e2, h2⟩ := selectDown_spec L p [] m c' (by simpa using hv) (by simpa using hl) hb
    (L.posC_pos _ _ hpos)
  refine ⟨r.1, ?_, by simpa using h2⟩
  unfold nodeMask
  simp only [e0, e1, bind_ok]
  rw [show (1 : Nat) = ([] : List Nat).length + 1 from rfl, e2]
  rfl

theorem nodeMask_exact_irrel (I : Impl S C α) (b : Bool) (s : S) (p : List Nat) :
    nodeMask { I with exact := b } s p = nodeMask I s p := by
  have : ∀ (p : List Nat) (mc : Mask × C) (n : Nat),
      selectDown { I with exact := b } s mc n p = selectDown I s mc n p := by
    intro p
    induction p with
    | nil => intro mc n; rfl
    | cons i p ih => intro mc n; unfold selectDown; simp only [ih]
  unfold nodeMask
  simp only [this]

theorem get_of_treeData {D : Nat} {t : DT α} {k : Nat} (h9 : D ≤ 9) (h1 : 1 ≤ D) (hk : k < 64 ^ D) :
    (impl α D).get t k = treeData D t k (path 64 D k) := by
  unfold Impl.get
  simp only [impl]
  rw [indexFrom_ok h9, if_pos hk]
  simp only [bind_ok, levelIndices_ok h1 h9]

/-- What a successful inexact materialization is made of. -/
theorem mat_parts {I : Impl S C α} {s : S} {M : Nat → Option α} (h : IsTree I s M) (hN : I.N = 1)
    (hex : I.exact = false) (h9 : I.D ≤ 9) (hroom : card (64 ^ I.D) M < 2 ^ 32) {t : DT α}
    (ht : materialize I s = .ok t) :
    ∃ loc K, DS NoNode I.D (fixT t) (restrict (64 ^ I.D) M) loc K ∧ TightB t.heap ∧
      ∀ p, ValidPath 64 p → p.length < I.D → ∃ m, nodeMask (impl α I.D) t p = .ok m ∧
        ∀ j, m.bit j = (locSpec I.D loc K (restrict (64 ^ I.D) M)).bits p j := by
  obtain ⟨T, K, L, hc⟩ := h
  have h1 := L.cfg.depth
  have hW : width I.N = 64 := by rw [hN]; rfl
  have X : Src I s T K (restrict (64 ^ I.D) M) := by
    refine ⟨L, hN, h9, fun i hi => ?_, by rw [card_restrict]; exact hroom⟩
    have := hc i (by rw [hW]; exact hi)
    rw [hW] at this
    rw [this, restrict, if_pos hi]
  obtain ⟨hno, hyes⟩ := materialize_sparse X hex (fun k hk => by
    rw [restrict, if_neg (by omega)])
  have hl : LiveS I.D T [] := by
    refine Classical.byContradiction fun hl => ?_
    rw [hno hl] at ht; cases ht
  obtain ⟨t', e, ⟨loc, K', S'⟩, -, -⟩ := hyes hl
  rw [ht] at e; cases e
  refine ⟨loc, K', S', materialize_tight hex ht, fun p hv hp => ?_⟩
  have L' := LawfulC.unfix (S'.lawful h1 h9 (e := false) (fun h => by cases h))
  obtain ⟨m, e, hb⟩ := nodeMask_spec L'.toLawful (p := p) hv hp
  refine ⟨m, ?_, hb⟩
  rw [← nodeMask_exact_irrel _ false]
  exact e

end

section
variable {x : Bool} {S C α : Type} {I : Impl S C α} {s : S} {M : Nat → Option α}

/-- **C43** fails for *every* materialized tree expression without exact hierarchy of depth 2 – 9 and
*every* insertion that adds a child to an existing branch node: let `m` be the (non-empty) mask of the
node at the first `n` coordinates of `k` (`n + 2 ≤ D`), not having the bit of coordinate `n` of `k`.
Then inserting `k` succeeds and drops nothing, but afterwards looking up *any* key with the same first
`n` coordinates, whose coordinate `n` is above all set bits of the node (including the new one), is
undefined behaviour; a map would answer `None`. -/
theorem C43_fails_insert_any (h : Built x I s M) (hN : I.N = 1) (hex : I.exact = false)
    (h9 : I.D ≤ 9) (hroom : card (64 ^ I.D) M < 2 ^ 32) {t : DT α} (ht : materialize I s = .ok t)
    {k n : Nat} (hk : k < 64 ^ I.D) (hn : n + 2 ≤ I.D) {m : Mask}
    (hm : nodeMask (impl α I.D) t ((path 64 I.D k).take n) = .ok m)
    (hsome : ∃ j, m.bit j = true) (hnew : m.bit ((path 64 I.D k).getD n 0) = false) (v : α) :
    ∃ out, Dense.insert I.D t k v = .ok out ∧ out.dropped = [] ∧
      ∀ k', k' < 64 ^ I.D → (path 64 I.D k').take n = (path 64 I.D k).take n →
        (path 64 I.D k).getD n 0 < (path 64 I.D k').getD n 0 →
        (∀ j, m.bit j = true → j < (path 64 I.D k').getD n 0) →
        (impl α I.D).get out.tree k' = .error .ub := by
  obtain ⟨loc, K, S', hT, hmask⟩ := mat_parts (built_isTree h).1 hN hex h9 hroom ht
  have hP := validPath_path hk
  have hl := path_length 64 I.D k
  obtain ⟨m', e, hb⟩ := hmask ((path 64 I.D k).take n) (hP.take n) (by
    rw [List.length_take]; omega)
  rw [hm] at e; cases e
  obtain ⟨j0, hj0⟩ := hsome
  have hW := S'.spec_wf (e := false) (fun h => by cases h)
  have hj0' : j0 < 64 := hW.bits_lt _ _ (by rw [← hb]; exact hj0)
  rw [hb] at hj0
  obtain ⟨⟨a, ha⟩, -⟩ := (S'.bits_iff hj0').1 hj0
  have hget : (path 64 I.D k)[n]? = some ((path 64 I.D k).getD n 0) := by
    rw [List.getD_eq_getElem?_getD, List.getElem?_eq_getElem (by omega)]; rfl
  have hlt : (path 64 I.D k).getD n 0 < 64 := hP _ (List.mem_of_getElem? hget)
  have hlen : ((path 64 I.D k).take n).length + 1 < I.D := by rw [List.length_take]; omega
  have hbit : ∀ j, j < 64 → loc ((path 64 I.D k).take n ++ [j]) ≠ none → m.bit j = true := by
    intro j hj hne
    rw [hb, S'.bits_iff hj, cellsOf_branch hlen]
    refine ⟨⟨a, ha⟩, ?_⟩
    cases e : loc ((path 64 I.D k).take n ++ [j]) with
    | none => exact absurd e hne
    | some y => simp
  have hno : loc ((path 64 I.D k).take (n + 1)) = none := by
    rw [take_succ_of_getElem? hget]
    cases e : loc ((path 64 I.D k).take n ++ [(path 64 I.D k).getD n 0]) with
    | none => rfl
    | some y =>
      have := hbit _ hlt (by rw [e]; simp)
      rw [hnew] at this; cases this
  obtain ⟨out, e1, e2, e3⟩ := insert_lossy S'.tree hT h9 hk hn ha hno true v
  refine ⟨out, ?_, e2, fun k' hk' htk hgt hall => ?_⟩
  · unfold Dense.insert
    rw [indexFrom_ok h9, if_pos hk]
    exact e1
  · rw [get_of_treeData h9 (by omega) hk']
    refine e3 k' hk' htk hgt fun j hj => ?_
    by_cases hj64 : j < 64
    · exact hall j (hbit j hj64 hj)
    · exfalso
      cases e : loc ((path 64 I.D k).take n ++ [j]) with
      | none => exact hj e
      | some y =>
        have := (S'.tree.valid _ _ e).1 j (by simp)
        exact hj64 this

/-- **C43** fails for *every* materialized tree expression without exact hierarchy of depth 2 – 9 and
*every* removal that empties a block: let `k` be a present key, the only one in its aligned block of 64
keys, and let `m` be the mask of the node above its terminal node (at the first `D - 2` coordinates).
If the coordinate `D - 2` of `k` is the highest set bit of `m` (and, for depths above 2, `m` does not
have exactly two bits, when worse happens: `C43_fails_remove`), then removing `k` returns its value, but
afterwards looking up *any* key with the same first `D - 2` coordinates whose coordinate `D - 2` is above
all other set bits of `m` – the removed key itself, for one – is undefined behaviour. -/
theorem C43_fails_remove_any (h : Built x I s M) (hN : I.N = 1) (hex : I.exact = false)
    (h2 : 2 ≤ I.D) (h9 : I.D ≤ 9) (hroom : card (64 ^ I.D) M < 2 ^ 32) {t : DT α}
    (ht : materialize I s = .ok t) {k : Nat} (hk : k < 64 ^ I.D) {v : α} (hv : M k = some v)
    (halone : ∀ k', k' < 64 ^ I.D → k' / 64 = k / 64 → k' ≠ k → M k' = none) {m : Mask}
    (hm : nodeMask (impl α I.D) t ((path 64 I.D k).take (I.D - 2)) = .ok m)
    (htop : ∀ j, m.bit j = true → j ≤ (path 64 I.D k).getD (I.D - 2) 0)
    (hcount : I.D = 2 ∨ ((List.range 64).filter (m.bit ·)).length ≠ 2) :
    ∃ t', Dense.remove I.D t k = .ok (t', some v) ∧
      ∀ k', k' < 64 ^ I.D → (path 64 I.D k').take (I.D - 2) = (path 64 I.D k).take (I.D - 2) →
        (∀ j, m.bit j = true → j ≠ (path 64 I.D k).getD (I.D - 2) 0 →
          j < (path 64 I.D k').getD (I.D - 2) 0) →
        (impl α I.D).get t' k' = .error .ub := by
  obtain ⟨loc, K, S', hT, hmask⟩ := mat_parts (built_isTree h).1 hN hex h9 hroom ht
  have hP := validPath_path hk
  have hl := path_length 64 I.D k
  obtain ⟨m', e, hb⟩ := hmask ((path 64 I.D k).take (I.D - 2)) (hP.take _) (by
    rw [List.length_take]; omega)
  rw [hm] at e; cases e
  have hlen : ((path 64 I.D k).take (I.D - 2)).length + 1 < I.D := by rw [List.length_take]; omega
  have hg1 : (path 64 I.D k)[I.D - 2]? = some ((path 64 I.D k).getD (I.D - 2) 0) := by
    rw [List.getD_eq_getElem?_getD, List.getElem?_eq_getElem (by omega)]; rfl
  have hg2 : (path 64 I.D k)[I.D - 1]? = some ((path 64 I.D k).getD (I.D - 1) 0) := by
    rw [List.getD_eq_getElem?_getD, List.getElem?_eq_getElem (by omega)]; rfl
  have hPP : path 64 I.D k = (path 64 I.D k).take (I.D - 2) ++ [(path 64 I.D k).getD (I.D - 2) 0] ++
      [(path 64 I.D k).getD (I.D - 1) 0] := by
    rw [← take_succ_of_getElem? hg1, show I.D - 2 + 1 = I.D - 1 by omega, ← take_succ_of_getElem? hg2,
      List.take_of_length_le (by omega)]
  have hlive : (∃ a, loc ((path 64 I.D k).take (I.D - 2)) = some a) := by
    have hK := S'.some_iff hP hl
    rw [unpath_path 64 I.D k hk, restrict, if_pos hk, hv] at hK
    obtain ⟨d, hd⟩ := Option.isSome_iff_exists.1 hK.symm
    rw [hPP] at hd
    obtain ⟨b, hb⟩ := S'.tree.klive _ _ _ hd
    exact S'.tree.closed _ _ _ hb
  obtain ⟨a, ha⟩ := hlive
  have hbit : ∀ j, j < 64 → (m.bit j = true ↔ loc ((path 64 I.D k).take (I.D - 2) ++ [j]) ≠ none) := by
    intro j hj
    rw [hb, S'.bits_iff hj, cellsOf_branch hlen]
    cases e : loc ((path 64 I.D k).take (I.D - 2) ++ [j]) with
    | none => simp
    | some y => simp [ha]
  have h64 : ∀ j, loc ((path 64 I.D k).take (I.D - 2) ++ [j]) ≠ none → j < 64 := by
    intro j hj
    cases e : loc ((path 64 I.D k).take (I.D - 2) ++ [j]) with
    | none => exact absurd e hj
    | some y => exact (S'.tree.valid _ _ e).1 j (by simp)
  obtain ⟨t', e1, e2⟩ := remove_lossy S' hT h9 hk (v := v) (by rw [restrict, if_pos hk, hv]) (by
      intro k' hk' hne
      unfold restrict
      split
      · exact halone k' (by assumption) hk' hne
      · rfl) hPP (by
      intro j hj
      cases e : loc ((path 64 I.D k).take (I.D - 2) ++ [j]) with
      | none => rfl
      | some y =>
        have hne : loc ((path 64 I.D k).take (I.D - 2) ++ [j]) ≠ none := by rw [e]; simp
        have := htop j ((hbit j (h64 j hne)).2 hne)
        omega) (by
      rcases hcount with hc | hc
      · exact .inl hc
      · right
        intro e
        apply hc
        rw [← e]
        have : ∀ l : List Nat, (∀ j ∈ l, j < 64) → (l.filter (m.bit ·)).length =
            (l.filterMap (cellsOf I.D loc K ((path 64 I.D k).take (I.D - 2)))).length := by
          intro l
          induction l with
          | nil => intro _; rfl
          | cons j l ih =>
            intro hl'
            have ih := ih (fun y hy => hl' y (by simp [hy]))
            have hbj := hbit j (hl' j (by simp))
            rw [List.filter_cons, List.filterMap_cons, cellsOf_branch hlen]
            cases e : loc ((path 64 I.D k).take (I.D - 2) ++ [j]) with
            | none =>
              rw [e] at hbj
              have : m.bit j = false := by
                cases hh : m.bit j with
                | false => rfl
                | true => exact absurd rfl (hbj.1 hh)
              simp [this, ih]
            | some y =>
              rw [e] at hbj
              simp [hbj.2 (by simp), ih]
        exact this _ (fun j hj => List.mem_range.1 hj))
  refine ⟨t', e1, fun k' hk' htk hall => ?_⟩
  rw [get_of_treeData h9 (by omega) hk']
  refine e2 k' hk' htk fun j hj hne => ?_
  exact hall j ((hbit j (h64 j hne)).2 hne) hj

end

/-- `intersection(exD, exU)` (content: key 5 only) meets the hypotheses of both theorems, with
`k = 64`, `n = 0` for the insertion and `k = 5` for the removal: it is materialized, and the root mask
has bit 0 only. -/
theorem exMatFail : ∃ t, materialize (interImpl (Dense.impl Nat 2) (Sparse.impl Nat 1 2)) (exD, exU) =
      .ok t ∧ nodeMask (impl (Nat × Nat) 2) t [] = .ok [1] := by
  have h : (do
      let t ← materialize (interImpl (Dense.impl Nat 2) (Sparse.impl Nat 1 2)) (exD, exU)
      nodeMask (impl (Nat × Nat) 2) t [] : R _) = .ok [1] := by decide +kernel
  obtain ⟨t, e1, e2⟩ := bind_inv h
  exact ⟨t, e1, e2⟩

/-- Inserting key 64 there makes looking up every key from 128 on undefined behaviour. -/
example : ∃ t out, materialize (interImpl (Dense.impl Nat 2) (Sparse.impl Nat 1 2)) (exD, exU) = .ok t ∧
    Dense.insert 2 t 64 (0, 0) = .ok out ∧
    ∀ k', 128 ≤ k' → k' < 4096 → (impl (Nat × Nat) 2).get out.tree k' = .error .ub := by
  obtain ⟨t, e1, e2⟩ := exMatFail
  have hbits : ∀ j, Mask.bit [1] j = true → j = 0 := by
    intro j hj
    rw [bit_single] at hj
    split at hj
    · rename_i h
      have : ∀ j, j < 64 → (1 : Word).getLsbD j = true → j = 0 := by decide
      exact this j h hj
    · cases hj
  obtain ⟨out, g1, -, g2⟩ := C43_fails_insert_any 
    (.inter (I0 := Dense.impl Nat 2) (I1 := Sparse.impl Nat 1 2) rfl rfl exD_built exU_built) rfl rfl
    (by decide) (Nat.lt_of_le_of_lt (card_le _ _) (by decide)) e1 (k := 64) (n := 0) (by decide)
    (by decide) e2 ⟨0, by decide⟩ (by decide) (0, 0)
  refine ⟨t, out, e1, g1, fun k' h1 h2 => g2 k' h2 rfl ?_ ?_⟩
  · show (path 64 2 64).getD 0 0 < (path 64 2 k').getD 0 0
    have : (path 64 2 64).getD 0 0 = 1 := by decide
    rw [this]
    show 1 < _
    simp [path]
    omega
  · intro j hj
    rw [hbits j hj]
    show 0 < (path 64 2 k').getD 0 0
    simp [path]
    omega

/-- Removing key 5 there makes looking up every key undefined behaviour (no other bit is set). -/
example : ∃ t t', materialize (interImpl (Dense.impl Nat 2) (Sparse.impl Nat 1 2)) (exD, exU) = .ok t ∧
    Dense.remove 2 t 5 = .ok (t', some (56, 2)) ∧
    ∀ k', k' < 4096 → (impl (Nat × Nat) 2).get t' k' = .error .ub := by
  obtain ⟨t, e1, e2⟩ := exMatFail
  have hbits : ∀ j, Mask.bit [1] j = true → j = 0 := by
    intro j hj
    rw [bit_single] at hj
    split at hj
    · rename_i h
      have : ∀ j, j < 64 → (1 : Word).getLsbD j = true → j = 0 := by decide
      exact this j h hj
    · cases hj
  have hU : ∀ k', k' / 64 = 0 → k' ≠ 5 → interMap exDM exUM k' = none := by
    intro k' h1 h2
    have : ∀ k', k' < 64 → k' ≠ 5 → interMap exDM exUM k' = none := by decide +kernel
    exact this k' (by omega) h2
  obtain ⟨t', g1, g2⟩ := C43_fails_remove_any 
    (.inter (I0 := Dense.impl Nat 2) (I1 := Sparse.impl Nat 1 2) rfl rfl exD_built exU_built) rfl rfl
    (by decide) (by decide) (Nat.lt_of_le_of_lt (card_le _ _) (by decide)) e1 (k := 5) (by decide)
    (v := (56, 2)) (by decide +kernel) (fun k' _ h1 h2 => hU k' (by simpa using h1) h2) e2
    (fun j hj => by rw [hbits j hj]; exact Nat.zero_le _) (.inl rfl)
  refine ⟨t, t', e1, g1, fun k' h2 => g2 k' h2 rfl ?_⟩
  intro j hj hne
  exact absurd (hbits j hj) hne

end Hibit.Props
