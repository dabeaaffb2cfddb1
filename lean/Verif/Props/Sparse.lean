import Verif.Sparse.Blocks
import Verif.Props.Dense
/-!
# Properties C19 – C26, C45, C46: SparseTree

Specification vocabulary (`Verif/Sparse/History.lean`, `Verif/MapSpec.lean`,
`Verif/Sparse/Groups.lean`): a container is a map `Nat → Option α`; `Op.spec` says what each public
operation does to the map, what the caller observes and which values are destroyed; `specRun` runs a
history on the map; `groups W D n M` is the number of aligned ranges of `W^(D-n)` keys holding a
stored key (`n = D`: the number of stored keys); `Always` says that every state of the history has
a property.

A tree type is given by `N` (mask words; the width is `64·N`), the depth `D` and `dflt`: `none` for
`SparseTree<_, T>`, `some d` for `SparseTree<_, T, ReqDefault>` where `T::default()` gave `d`.
-/
namespace Hibit.Props
open Hibit Hibit.Sparse

section
variable {α : Type}

/-- A history that the type supports: a shipped configuration (config.rs), in-range keys, and no
state that exhausts a child index type. -/
structure SparseHistory (N D : Nat) (dflt : Option α) (ops : List (Op α)) : Prop where
  cfg : Cfg N D
  ok : ∀ op ∈ ops, op.Ok (keyRange N D) dflt
  fits : Always dflt (Fits (width N) D idxCap) emptyMap ops

/-- `t` is the tree reached from `SparseTree::default()` by the history `ops`. -/
def SparseReached (N D : Nat) (dflt : Option α) (ops : List (Op α)) (t : ST α) : Prop :=
  ∃ outs, run N D (Sparse.default α N D dflt) ops = .ok (t, outs)

variable {N D : Nat} {dflt : Option α} {ops : List (Op α)} {t : ST α}

theorem SparseHistory.reachCap (h : SparseHistory N D dflt ops) {cap : Nat → Nat}
    (hcap : CapOk D cap) (hf : Always dflt (Fits (width N) D cap) emptyMap ops) :
    ∃ t, run N D (Sparse.default α N D dflt) ops = .ok (t, (specRun dflt emptyMap ops).2) ∧
      SRep N D cap dflt [] t (specRun dflt emptyMap ops).1 :=
  run_spec h.cfg hcap ops _ emptyMap ⟨_, default_ss h.cfg.pos hcap.one⟩ h.ok hf

theorem SparseHistory.repCap (h : SparseHistory N D dflt ops) (hr : SparseReached N D dflt ops t)
    {cap : Nat → Nat} (hcap : CapOk D cap)
    (hf : Always dflt (Fits (width N) D cap) emptyMap ops) :
    SRep N D cap dflt [] t (specRun dflt emptyMap ops).1 := by
  obtain ⟨t1, e1, R⟩ := h.reachCap hcap hf
  obtain ⟨outs, f1⟩ := hr
  rw [e1] at f1
  simp only [Except.ok.injEq, Prod.mk.injEq] at f1
  rw [← f1.1]; exact R

theorem SparseHistory.rep (h : SparseHistory N D dflt ops) (hr : SparseReached N D dflt ops t) :
    SRep N D idxCap dflt [] t (specRun dflt emptyMap ops).1 :=
  h.repCap hr (idxCap_ok D) h.fits

theorem keyRange_lt {k : Nat} (h : k < keyRange N D) : k < width N ^ D :=
  Nat.lt_of_lt_of_le h (keyRange_le N D)

/-! ## When no child index type is exhausted -/

/-- Widths 64 and 128 with fewer than 2^32 elements: nothing is exhausted. -/
theorem fits_of_card (hN : N = 1 ∨ N = 2) (M : Nat → Option α)
    (hc : card (width N ^ D) M < 2 ^ 32) : Fits (width N) D idxCap M := by
  intro n h1 hn
  have a := groups_le_card (width N) D n M
  have b := groups_le_pow (width N) D n M
  unfold idxCap
  match n, h1 with
  | 1, _ =>
    have : groups (width N) D 1 M ≤ 128 := by
      rcases hN with rfl | rfl
      · exact Nat.le_trans b (by decide)
      · exact Nat.le_trans b (by decide)
    show 1 + _ ≤ 256
    omega
  | 2, _ =>
    have : groups (width N) D 2 M ≤ 16384 := by
      rcases hN with rfl | rfl
      · exact Nat.le_trans b (by decide)
      · exact Nat.le_trans b (by decide)
    show 1 + _ ≤ 65536
    omega
  | n + 3, _ =>
    show 1 + _ ≤ 2 ^ 32
    omega

/-- Width 256: at most 255 ranges of the root, at most 65535 of the next level, fewer than 2^32
elements. -/
theorem fits_of_groups (M : Nat → Option α) (hc : card (width N ^ D) M < 2 ^ 32)
    (h1 : 1 ≤ D → groups (width N) D 1 M ≤ 255) (h2 : 2 ≤ D → groups (width N) D 2 M ≤ 65535) :
    Fits (width N) D idxCap M := by
  intro n hn1 hn
  have a := groups_le_card (width N) D n M
  unfold idxCap
  match n, hn1 with
  | 1, _ =>
    have := h1 hn
    show 1 + _ ≤ 256
    omega
  | 2, _ =>
    have := h2 hn
    show 1 + _ ≤ 65536
    omega
  | n + 3, _ =>
    show 1 + _ ≤ 2 ^ 32
    omega

theorem always_of_forall {P : (Nat → Option α) → Prop} (h : ∀ M, P M) :
    ∀ (ops : List (Op α)) (M : Nat → Option α), Always dflt P M ops := by
  intro ops
  induction ops with
  | nil => intro M; exact h M
  | cons op ops ih => intro M; exact ⟨h M, ih _⟩

/-- Width 64 up to depth 5, width 128 up to depth 4: every content fits. -/
theorem SparseHistory.of_small (hc : Cfg N D) (hs : N = 1 ∧ D ≤ 5 ∨ N = 2 ∧ D ≤ 4)
    (hr : ∀ op ∈ ops, op.Ok (keyRange N D) dflt) : SparseHistory N D dflt ops := by
  refine ⟨hc, hr, always_of_forall (fun M => fits_of_card (by omega) M ?_) _ _⟩
  have h1 := card_le (width N ^ D) M
  rcases hs with ⟨rfl, h⟩ | ⟨rfl, h⟩
  · have h2 : width 1 ^ D ≤ 64 ^ 5 := Nat.pow_le_pow_right (by decide) h
    have h3 : 64 ^ 5 < 2 ^ 32 := by decide
    omega
  · have h2 : width 2 ^ D ≤ 128 ^ 4 := Nat.pow_le_pow_right (by decide) h
    have h3 : 128 ^ 4 < 2 ^ 32 := by decide
    omega

/-- Widths 64 and 128: every in-range history of fewer than 2^32 operations fits, at any depth. -/
theorem SparseHistory.of_length (hc : Cfg N D) (hN : N = 1 ∨ N = 2) (hl : ops.length < 2 ^ 32)
    (hr : ∀ op ∈ ops, op.Ok (keyRange N D) dflt) : SparseHistory N D dflt ops ∧
    Always dflt (fun M => card (width N ^ D) M < 2 ^ 32) emptyMap ops := by
  have key : ∀ (ops : List (Op α)) (M : Nat → Option α),
      card (width N ^ D) M + ops.length < 2 ^ 32 → (∀ op ∈ ops, op.Ok (keyRange N D) dflt) →
      Always dflt (fun M => card (width N ^ D) M < 2 ^ 32) M ops := by
    intro ops
    induction ops with
    | nil => intro M h _; exact h
    | cons op ops ih =>
      intro M h hr
      simp only [List.length_cons] at h
      refine ⟨by omega, ih _ ?_ fun o ho => hr o (by simp [ho])⟩
      have hop := hr op (by simp)
      have : card (width N ^ D) (op.spec dflt M).1 ≤ card (width N ^ D) M + 1 := by
        cases op with
        | insert k v => exact card_put_le (keyRange_lt hop) M _
        | getOrInsert k d g => exact card_put_le (keyRange_lt hop) M _
        | remove k => exact card_put_le (keyRange_lt hop) M _
        | get k => exact Nat.le_succ _
        | getMut k g => exact card_put_le (keyRange_lt hop) M _
        | getOrDefault k => exact Nat.le_succ _
        | mutValues g => exact Nat.le_succ_of_le (Nat.le_of_eq (card_map _ M g))
      omega
  have h0 : card (width N ^ D) (emptyMap : Nat → Option α) = 0 := card_empty _
  have hA := key ops emptyMap (by omega) hr
  exact ⟨⟨hc, hr, hA.mono fun M hM => fits_of_card hN M hM⟩, hA⟩

/-! ## C19 – C23 -/

/-- **C19** (and the observed values of C20): every supported history runs without panic or
undefined behaviour, each operation returns what it returns on the map, and afterwards `get` is the
map, for every in-range key. -/
theorem C19_sparse_map (h : SparseHistory N D dflt ops) :
    ∃ t, run N D (Sparse.default α N D dflt) ops = .ok (t, (specRun dflt emptyMap ops).2) ∧
      ∀ k, k < keyRange N D → (impl α N D).get t k = .ok ((specRun dflt emptyMap ops).1 k) := by
  obtain ⟨t, e, R⟩ := h.reachCap (idxCap_ok D) h.fits
  exact ⟨t, e, fun k hk => get_spec h.cfg R hk⟩

/-- The key range is all of `0..width^depth`, except for `usize::MAX` in the one configuration
(width 256, depth 8) where that is a key. -/
theorem keyRange_eq (N D : Nat) : keyRange N D = min (width N ^ D) (2 ^ 64 - 1) := rfl

/-- A concrete history, on trees with default value 9. -/
def exOpsS : List (Op Nat) :=
  [.insert 5 50, .insert 16383 1, .insert 5 51, .getOrInsert 128 7 (· + 1), .remove 6,
   .remove 16383, .insert 200 2, .mutValues (fun k v => k + v), .getMut 200 (· * 2), .getMut 3 (· * 2),
   .getOrDefault 3, .get 5]

theorem exOpsS_history : SparseHistory 2 2 (some 9) exOpsS := by
  refine .of_small ⟨by decide, by decide, by decide⟩ (by decide) ?_
  intro op h
  have e : keyRange 2 2 = 16384 := by decide
  simp only [exOpsS, List.mem_cons, List.not_mem_nil, or_false] at h
  rcases h with rfl | rfl | rfl | rfl | rfl | rfl | rfl | rfl | rfl | rfl | rfl | rfl <;>
    simp [Op.Ok, e]

/-- The tree reached by `exOpsS`. -/
def exS : ST Nat :=
  match run 2 2 (Sparse.default Nat 2 2 (some 9)) exOpsS with
  | .ok r => r.1
  | .error _ => Sparse.default Nat 2 2 (some 9)

theorem exS_reached : SparseReached 2 2 (some 9) exOpsS exS := by
  obtain ⟨t, e1, -⟩ := exOpsS_history.reachCap (idxCap_ok 2) exOpsS_history.fits
  refine ⟨(specRun (some 9) emptyMap exOpsS).2, ?_⟩
  have : exS = t := by unfold exS; rw [e1]
  rw [this]; exact e1

/-- `C19_sparse_map` on `exOpsS`, computed by the kernel: the values observed and some lookups. -/
example : (do
    let r ← run 2 2 (Sparse.default Nat 2 2 (some 9)) exOpsS
    return (r.2.map (·.1), ← (impl Nat 2 2).get r.1 5, ← (impl Nat 2 2).get r.1 16383) : R _) =
    .ok ([none, none, none, some 7, none, some 1, none, none, some 202, none, some 9, some 56],
      some 56, none) := by decide +kernel

example : ((specRun (some 9) emptyMap exOpsS).1 5, (specRun (some 9) emptyMap exOpsS).1 128,
    (specRun (some 9) emptyMap exOpsS).1 16383, (specRun (some 9) emptyMap exOpsS).1 200,
    (specRun (some 9) emptyMap exOpsS).2.map (·.1)) =
    (some 56, some 136, none, some 404,
     [none, none, none, some 7, none, some 1, none, none, some 202, none, some 9, some 56]) := by
  decide

/-- The only key an operation names (`key_values_mut` names none: it writes to every value). -/
def _root_.Hibit.Sparse.Op.key : Op α → Option Nat
  | .insert k _ => some k
  | .getOrInsert k _ _ => some k
  | .remove k => some k
  | .get k => some k
  | .getMut k _ => some k
  | .getOrDefault k => some k
  | .mutValues _ => none

theorem always_prefix {P : (Nat → Option α) → Prop} {op : Op α} :
    ∀ (ops : List (Op α)) (M : Nat → Option α), Always dflt P M (ops ++ [op]) →
      Always dflt P M ops ∧ P (op.spec dflt (specRun dflt M ops).1).1 := by
  intro ops
  induction ops with
  | nil => intro M h; exact ⟨h.1, h.2⟩
  | cons o ops ih =>
    intro M h
    obtain ⟨h1, h2⟩ := ih _ h.2
    exact ⟨⟨h.1, h1⟩, h2⟩

theorem SparseHistory.init {op : Op α} (h : SparseHistory N D dflt (ops ++ [op])) :
    SparseHistory N D dflt ops :=
  ⟨h.cfg, fun o ho => h.ok o (by simp [ho]), (always_prefix ops _ h.fits).1⟩

/-- **C19**, independence: after any supported history, the next operation, if it names the key `k`,
leaves what `get` returns for every other key unchanged. -/
theorem C19_independent {op : Op α} (h : SparseHistory N D dflt (ops ++ [op]))
    (hr : SparseReached N D dflt ops t) {k : Nat} (hk : op.key = some k) :
    ∃ t' o, step N D t op = .ok (t', o) ∧
      ∀ j, j < keyRange N D → j ≠ k → (impl α N D).get t' j = (impl α N D).get t j := by
  have R := h.init.rep hr
  obtain ⟨t', e, R'⟩ := step_spec h.cfg (idxCap_ok D) R (h.ok op (by simp))
    (fits_occ_nil (always_prefix ops _ h.fits).2)
  refine ⟨t', _, e, fun j hj hjk => ?_⟩
  rw [get_spec h.cfg R' hj, get_spec h.cfg R hj]
  cases op <;> simp_all [Op.spec, Op.key, put]

/-- After `exOpsS`, `remove(128)` changes key 128 only. -/
example : ∃ t' o, step 2 2 exS (.remove 128) = .ok (t', o) ∧
    ∀ j, j < keyRange 2 2 → j ≠ 128 → (impl Nat 2 2).get t' j = (impl Nat 2 2).get exS j := by
  refine C19_independent (ops := exOpsS) (dflt := some 9) ?_ exS_reached rfl
  refine .of_small ⟨by decide, by decide, by decide⟩ (by decide) fun op hop => ?_
  rcases List.mem_append.1 hop with h | h
  · exact exOpsS_history.ok op h
  · rw [List.mem_singleton.1 h]
    show 128 < keyRange 2 2
    decide

example : (do
    let r ← step 2 2 exS (.remove 128)
    return (r.2, ← (impl Nat 2 2).get r.1 128, ← (impl Nat 2 2).get r.1 5) : R _) =
    .ok ((some 136, []), none, some 56) := by decide +kernel

/-- **C20**: after any supported history, for every key (with room for it): `insert` stores the
value, dropping exactly the old one; `get_or_insert` refers to a present value without calling
`Data::default()`, and otherwise stores the default; `get_mut` refers to the present value, or is
`None`; `get_or_default` returns the present value or the default of the tree; `remove` returns the
stored value and a second `remove` returns `None`. -/
theorem C20_sparse_ops (h : SparseHistory N D dflt ops) (hr : SparseReached N D dflt ops t)
    {k : Nat} (hk : k < keyRange N D) (v : α)
    (hroom : Fits (width N) D idxCap (put (specRun dflt emptyMap ops).1 k (some v))) :
    let M := (specRun dflt emptyMap ops).1
    (∃ out, Sparse.insert N D t k v = .ok out ∧ out.dropped = (M k).toList ∧
      ∀ j, j < keyRange N D → (impl α N D).get out.tree j = .ok (if j = k then some v else M j)) ∧
    (∃ out, getOrInsert N D t k v = .ok out ∧ out.dropped = [] ∧ out.called = (M k).isNone ∧
      out.tree.values[out.dataIndex]? = some (some ((M k).getD v)) ∧
      ∀ j, j < keyRange N D → (impl α N D).get out.tree j =
        .ok (if j = k then some ((M k).getD v) else M j)) ∧
    (M k = none → getMut N D t k = .ok none) ∧
    (∀ w, M k = some w → ∃ i, getMut N D t k = .ok (some i) ∧ getMutU N D t k = .ok i ∧
      t.values[i]? = some (some w) ∧ ∀ g : α → α, ∃ t', writeRef t i g = .ok (t', w) ∧
        ∀ j, j < keyRange N D → (impl α N D).get t' j = .ok (if j = k then some (g w) else M j)) ∧
    (∀ d, dflt = some d → getOrDefault N D t k = .ok ((M k).getD d)) ∧
    (∃ t', remove N D t k = .ok (t', M k) ∧
      (∀ j, j < keyRange N D → (impl α N D).get t' j = .ok (if j = k then none else M j)) ∧
      ∃ t'', remove N D t' k = .ok (t'', none) ∧
        ∀ j, j < keyRange N D → (impl α N D).get t'' j = .ok (if j = k then none else M j)) := by
  obtain ⟨B, S⟩ := h.rep hr
  intro M
  have hk' := keyRange_lt hk
  have hcap := idxCap_ok D
  refine ⟨?_, ?_, ?_, ?_, ?_, ?_⟩
  · obtain ⟨out, B', e1, S', -, -, -, e2, -⟩ := S.getOrInsert_fits h.cfg hcap hk' true v (fits_occ_nil hroom)
    refine ⟨out, ?_, by simpa using e2, fun j hj => ?_⟩
    · unfold Sparse.insert; rw [indexFrom_eq, if_pos hk]; exact e1
    · rw [get_spec h.cfg ⟨B', S'⟩ hj]; rfl
  · obtain ⟨out, B', e1, S', -, -, e4, e2, e3⟩ :=
      S.getOrInsert_fits h.cfg hcap hk' false v (fits_occ_nil hroom)
    refine ⟨out, ?_, by simpa using e2, by simpa using e3, by simpa using e4, fun j hj => ?_⟩
    · unfold getOrInsert; rw [indexFrom_eq, if_pos hk]; exact e1
    · rw [get_spec h.cfg ⟨B', S'⟩ hj]; rfl
  · intro hM
    have hM' : (specRun dflt emptyMap ops).1 k = none := hM
    rw [S.getMut_spec h.cfg hk, hM']; rfl
  · intro w hM
    have hM' : (specRun dflt emptyMap ops).1 k = some w := hM
    have hg := S.getMut_spec h.cfg hk
    rw [hM'] at hg
    simp only [Option.isSome_some, if_true] at hg
    refine ⟨_, hg, by unfold getMutU; rw [hg]; rfl, ?_, fun g => ?_⟩
    · rcases S.entry hk' with ⟨h1, -⟩ | ⟨u, h1, -, h3⟩
      · rw [hM'] at h1; cases h1
      · rw [hM'] at h1; cases h1; exact h3
    · obtain ⟨t', e, S'⟩ := S.writeRef_spec hk' hM' g
      refine ⟨t', e, fun j hj => ?_⟩
      rw [get_spec h.cfg ⟨_, S'⟩ hj]; rfl
  · intro d hd
    exact S.getOrDefault_spec h.cfg hk hd
  · obtain ⟨t', B', e1, S'⟩ := S.remove_spec h.cfg hcap hk
    obtain ⟨t'', B'', f1, S''⟩ := S'.remove_spec h.cfg hcap hk
    refine ⟨t', e1, fun j hj => ?_, t'', ?_, fun j hj => ?_⟩
    · rw [get_spec h.cfg ⟨B', S'⟩ hj]; rfl
    · rw [f1]; simp [put]
    · rw [get_spec h.cfg ⟨B'', S''⟩ hj]
      simp only [put]
      by_cases e : j = k <;> simp [e]
      rfl

/-- The hypotheses hold after `exOpsS` for the present key 128 (value 136). -/
example : (∃ out, Sparse.insert 2 2 exS 128 9 = .ok out ∧ out.dropped = [136]) ∧
    (∃ out, getOrInsert 2 2 exS 128 9 = .ok out ∧ out.called = false) ∧
    (∃ i, getMut 2 2 exS 128 = .ok (some i) ∧ exS.values[i]? = some (some 136)) ∧
    getOrDefault 2 2 exS 128 = .ok 136 ∧ (∃ t', remove 2 2 exS 128 = .ok (t', some 136)) := by
  have hM : (specRun (some 9) emptyMap exOpsS).1 128 = some 136 := by decide
  have hf : Fits (width 2) 2 idxCap (put (specRun (some 9) emptyMap exOpsS).1 128 (some 9)) := by
    refine fits_of_card (.inr rfl) _ ?_
    have := card_le (width 2 ^ 2) (put (specRun (some 9) emptyMap exOpsS).1 128 (some 9))
    have h2 : width 2 ^ 2 = 16384 := by decide
    omega
  obtain ⟨⟨o1, a1, a2, -⟩, ⟨o2, b1, -, b2, -⟩, -, h4, h5, ⟨t', c1, -⟩⟩ :=
    C20_sparse_ops exOpsS_history exS_reached (k := 128) (by decide) 9 hf
  obtain ⟨i, d1, -, d2, -⟩ := h4 136 hM
  rw [hM] at a2 b2 c1 h5
  exact ⟨⟨o1, a1, a2⟩, ⟨o2, b1, b2⟩, ⟨i, d1, d2⟩, h5 9 rfl, t', c1⟩

/-- **C21**: `key_values()` succeeds with two equally long slices of initialised values, listing
every present key exactly once with its value, and nothing else. -/
theorem C21_key_values (h : SparseHistory N D dflt ops) (hr : SparseReached N D dflt ops t) :
    ∃ (ks : List Nat) (vs : List α), keyValues t = .ok (ks, vs.map some) ∧
      ks.length = vs.length ∧ ks.Nodup ∧
      ∀ k v, (k, v) ∈ ks.zip vs ↔ k < width N ^ D ∧ (specRun dflt emptyMap ops).1 k = some v := by
  obtain ⟨B, S⟩ := h.rep hr
  obtain ⟨ks, vs, e1, e2, e3, e4⟩ := S.keyValues_spec
  refine ⟨ks, vs, e1, e2, e3, fun k v => ?_⟩
  rw [← e4 k v]
  constructor
  · intro hm
    obtain ⟨j, hj, e⟩ := List.getElem_of_mem hm
    rw [List.getElem_zip] at e
    simp only [Prod.mk.injEq] at e
    simp only [List.length_zip] at hj
    exact ⟨j, by rw [List.getElem?_eq_getElem (by omega), e.1],
      by rw [List.getElem?_eq_getElem (by omega), e.2]⟩
  · rintro ⟨j, h1, h2⟩
    exact List.mem_of_getElem? (i := j) (by rw [List.getElem?_zip_eq_some]; exact ⟨h1, h2⟩)

example : SparseReached 2 2 (some 9) exOpsS exS ∧
    keyValues exS = .ok ([5, 128, 200], [56, 136, 404].map some) := ⟨exS_reached, by decide +kernel⟩

/-- **C22**: no history with *arbitrary* `usize` keys (in range or not) that does not exhaust a
child index type has undefined behaviour: it runs to the end, or stops with a panic at an
out-of-range key. (In the model every unchecked access outside a block or value array, every use of
an uninitialised value yields `ub`; `insert`/`remove` of a block of the root level is a panic.) -/
theorem C22_memory_safe (hc : Cfg N D) (ops : List (Op α))
    (hb : Always dflt (Fits (width N) D idxCap) emptyMap ops)
    (hd : ∀ k, Op.getOrDefault k ∈ ops → dflt.isSome) :
    ∀ e, run N D (Sparse.default α N D dflt) ops = .error e →
      e = .panic ∧ ∃ op ∈ ops, ¬ op.Ok (keyRange N D) dflt := by
  have hcap := idxCap_ok D
  have key : ∀ (ops : List (Op α)) (t : ST α) (M : Nat → Option α),
      SRep N D idxCap dflt [] t M → Always dflt (Fits (width N) D idxCap) M ops →
      (∀ k, Op.getOrDefault k ∈ ops → dflt.isSome) → ∀ e, run N D t ops = .error e →
      e = .panic ∧ ∃ op ∈ ops, ¬ op.Ok (keyRange N D) dflt := by
    intro ops
    induction ops with
    | nil => intro t M R _ _ e he; cases he
    | cons op ops ih =>
      intro t M R hb hd e he
      by_cases hr : op.Ok (keyRange N D) dflt
      · obtain ⟨t1, e1, R1⟩ := step_spec hc hcap R hr (fits_occ_nil hb.2.head)
        simp only [run, e1, bind_ok] at he
        cases hrun : run N D t1 ops with
        | error e' =>
          rw [hrun] at he
          simp only [bind_err, Except.error.injEq] at he
          subst he
          obtain ⟨g1, o, g2, g3⟩ := ih t1 _ R1 hb.2 (fun k hk => hd k (by simp [hk])) _ hrun
          exact ⟨g1, o, by simp [g2], g3⟩
        | ok r => rw [hrun] at he; cases he
      · refine ⟨?_, op, by simp, hr⟩
        cases op with
        | mutValues g => exact absurd trivial hr
        | insert k v =>
          have hk : ¬ k < keyRange N D := hr
          simp only [run, step, Sparse.insert, indexFrom_eq, if_neg hk, bind_err,
            Except.error.injEq] at he
          exact he.symm
        | getOrInsert k d g =>
          have hk : ¬ k < keyRange N D := hr
          simp only [run, step, getOrInsert, indexFrom_eq, if_neg hk, bind_err,
            Except.error.injEq] at he
          exact he.symm
        | remove k =>
          have hk : ¬ k < keyRange N D := hr
          simp only [run, step, remove, indexFrom_eq, if_neg hk, bind_err,
            Except.error.injEq] at he
          exact he.symm
        | get k =>
          have hk : ¬ k < keyRange N D := hr
          have : (impl α N D).get t k = .error .panic := by
            show (do let index ← indexFrom N D k
                     let indices ← levelIndices N D index
                     treeData t indices) = _
            rw [indexFrom_eq, if_neg hk]; rfl
          simp only [run, step, this, bind_err, Except.error.injEq] at he
          exact he.symm
        | getMut k g =>
          have hk : ¬ k < keyRange N D := hr
          simp only [run, step, getMut, indexFrom_eq, if_neg hk, bind_err,
            Except.error.injEq] at he
          exact he.symm
        | getOrDefault k =>
          have hk : ¬ k < keyRange N D := fun e => hr ⟨e, hd k (by simp)⟩
          simp only [run, step, getOrDefault, indexFrom_eq, if_neg hk, bind_err,
            Except.error.injEq] at he
          exact he.symm
  exact key ops _ _ ⟨_, default_ss hc.pos hcap.one⟩ hb hd

/-- A history with an out-of-range key: it stops there with a panic. -/
example : Always (some 9) (Fits (width 2) 2 idxCap) emptyMap (exOpsS ++ [.remove 16384]) ∧
    (do
      let _ ← run 2 2 (Sparse.default Nat 2 2 (some 9)) (exOpsS ++ [.remove 16384]) : R _) =
        .error .panic := by
  refine ⟨always_of_forall (fun M => fits_of_card (.inr rfl) M ?_) _ _, by decide +kernel⟩
  have := card_le (width 2 ^ 2) M
  have h2 : width 2 ^ 2 = 16384 := by decide
  omega

/-- The trait contract holds with the content of the map, so iteration, cursors and combinators
work on the tree (C27–C41). -/
theorem sparse_isTree (h : SparseHistory N D dflt ops) (hr : SparseReached N D dflt ops t) :
    IsTreeC (impl α N D) t (specRun dflt emptyMap ops).1 := by
  obtain ⟨T, K, L, hT⟩ := (h.rep hr).lawful h.cfg
  refine ⟨T, K, L, fun i hi => ?_⟩
  rw [hT]
  show (specRun dflt emptyMap ops).1 (unpath (width N) (path (width N) D i)) = _
  rw [unpath_path (width N) D i hi]

/-- **C23**: `EXACT_HIERARCHY = true` is declared, and after any supported history every set bit of
every mask seen through any legal sequence of cursor moves leads to a stored key. -/
theorem C23_sparse_exact (h : SparseHistory N D dflt ops) (hr : SparseReached N D dflt ops t) :
    (impl α N D).exact = true ∧
    ∃ B, MaskSpec (width N) D true (specRun dflt emptyMap ops).1 B ∧
      ∃ c0, (impl α N D).new t = .ok c0 ∧
      ∀ moves, LegalMoves (width N) D B none moves →
        ∃ masks c, runMoves (impl α N D) t c0 moves = .ok (masks, c) ∧
          ∀ (n : Nat) m p j, masks[n]? = some m → (movePaths none moves)[n]? = some p →
            m.bit j = true → ∃ q, ValidPath (width N) (p ++ j :: q) ∧ (p ++ j :: q).length = D ∧
              ((specRun dflt emptyMap ops).1 (unpath (width N) (p ++ j :: q))).isSome = true :=
  ⟨rfl, contract_exact (sparse_isTree h hr).isTree rfl⟩

/-- The masks of the root and of the block of keys 128..256 after `exOpsS`. -/
example : SparseReached 2 2 (some 9) exOpsS exS ∧ (do
    let c ← (impl Nat 2 2).new exS
    let (m0, c) ← (impl Nat 2 2).select c exS 0 0
    let (m1, _) ← (impl Nat 2 2).select c exS 1 1
    return (m0, m1) : R _) = .ok ([0b11, 0], [1, 0b100000000]) := ⟨exS_reached, by decide +kernel⟩

/-- **C23**, storage: every block referenced from the level above has a set bit, i.e. removal
prunes every block that becomes empty. -/
theorem C23_no_empty_blocks (h : SparseHistory N D dflt ops) (hr : SparseReached N D dflt ops t)
    {n b i v : Nat} {L L' : Level} {blk blk' : Block} (hL : t.levels[n]? = some L)
    (hb : L.blocks[b]? = some blk) (hi : blk.idx[i]? = some v) (hv : v ≠ 0)
    (hL' : t.levels[n + 1]? = some L') (hb' : L'.blocks[v]? = some blk') :
    ∃ j, blk'.mask.bit j = true := by
  obtain ⟨B, S⟩ := h.rep hr
  obtain ⟨p, hp, -, hB⟩ := S.slot_live hL hb hi hv
  have hlt : n + 1 < D := by
    rw [← S.lv.len]; exact (List.getElem?_eq_some_iff.1 hL').1
  obtain ⟨j, hj⟩ : ∃ j, B (p ++ [i] ++ [j]) ≠ 0 := by
    rcases S.exact (p ++ [i]) (by simp) (by simp; omega) (by omega) with h | ⟨k, hk, _⟩
    · exact h
    · simp at hk
  have hvp := (S.lv.valid (p ++ [i]) (by omega)).1
  obtain ⟨b'', e1, hI⟩ := S.lv.block hvp (L := L') (by simp [hp, hL'])
  rw [hB, hb'] at e1
  cases e1
  have hjv := (S.lv.valid _ hj).1 j (by simp)
  exact ⟨j, by rw [(hI.slot j hjv (by simp)).2]; simpa using hj⟩

/-- After `exOpsS` the root refers to the blocks 1 and 3 of the next level; block 2, which held the
removed key 16383, is free. -/
example : (exS.levels[0]?.bind fun L => L.blocks[0]?.map fun b => b.idx.take 3) = some [1, 3, 0] ∧
    (exS.levels[1]?.map fun L => (L.blocks.map (·.mask), L.rootEmpty)) =
      some ([[0, 0], [0b100000, 0], [freeEnd, 0], [1, 0b100000000]], 2) := by decide +kernel

/-! ## C24: storage -/

/-- The free list of a level, following the links from `root_empty_block`. -/
inductive FreeList (L : Level) : Word → List Nat → Prop
  | nil : FreeList L freeEnd []
  | cons {r next : Word} {b : Block} {l : List Nat} : r ≠ freeEnd → L.blocks[r.toNat]? = some b →
      b.mask[0]? = some next → FreeList L next l → FreeList L r (r.toNat :: l)

/-- The child index in slot `i` of block `b` of a level. -/
def slot (L : Level) (b i : Nat) : Option Nat := (L.blocks[b]?).bind fun blk => blk.idx[i]?

/-- **C24**, bound: after any supported history the number of blocks of every level `n ≥ 1` is at
most one more than the largest number of nodes of that level live at the same time during the
history, and the value array has exactly one more entry than there are elements. -/
theorem C24_bounded_storage (h : SparseHistory N D dflt ops) (hr : SparseReached N D dflt ops t) :
    (∀ n L, 1 ≤ n → t.levels[n]? = some L →
      L.blocks.length ≤ 1 + peak (width N) D n dflt emptyMap ops) ∧
    t.values.length = 1 + card (width N ^ D) (specRun dflt emptyMap ops).1 := by
  obtain ⟨B, S⟩ := h.repCap hr (cap := fun n => 1 + peak (width N) D n dflt emptyMap ops)
    ⟨fun n _ _ => by omega, fun n hn => by rw [← idxCap_eq]; exact peak_le (by omega) hn ops _ h.fits⟩
    (always_peak _ _ _ ops _ fun n => Nat.le_refl _)
  refine ⟨fun n L h1 hL => ?_, by rw [S.card_eq]; omega⟩
  exact (S.lv.level n L hL).cap (by omega)

/-- Four blocks: the shared empty one and at most three live ones at a time (those of the keys 5,
16383 and 128). -/
example : SparseReached 2 2 (some 9) exOpsS exS ∧ exS.levels.map (·.blocks.length) = [1, 4] ∧
    groups (width 2) 2 1 (specRun (some 9) emptyMap (exOpsS.take 4)).1 = 3 ∧
    exS.values.length = 4 := by
  refine ⟨exS_reached, by decide +kernel, by decide +kernel, by decide +kernel⟩

/-- **C24**, partition: after any supported history the blocks of a level below the root are: the
shared empty block 0; free blocks, each once in the free list and referenced by no slot of the level
above; blocks in use, referenced by exactly one slot of the level above and not free. All references
are in bounds. -/
theorem C24_partition (h : SparseHistory N D dflt ops) (hr : SparseReached N D dflt ops t)
    {n : Nat} {Lp L : Level} (hLp : t.levels[n]? = some Lp) (hL : t.levels[n + 1]? = some L) :
    L.blocks[0]? = some (Block.empty N) ∧
    (∀ b i v, slot Lp b i = some v → v < L.blocks.length) ∧
    ∃ fl, FreeList L L.rootEmpty fl ∧ fl.Nodup ∧ 0 ∉ fl ∧ (∀ b ∈ fl, b < L.blocks.length) ∧
      ∀ v, 0 < v → v < L.blocks.length →
        (v ∈ fl ∧ ∀ b i, slot Lp b i ≠ some v) ∨
        (v ∉ fl ∧ ∃ b i, slot Lp b i = some v ∧
          ∀ b' i', slot Lp b' i' = some v → b' = b ∧ i' = i) := by
  obtain ⟨B, S⟩ := h.rep hr
  have K := S.lv.level _ _ hL
  have hslot : ∀ b i v, slot Lp b i = some v → v ≠ 0 →
      ∃ p, p.length = n ∧ B p = b ∧ B (p ++ [i]) = v := by
    intro b i v hs hv
    unfold slot at hs
    cases hb : Lp.blocks[b]? with
    | none => rw [hb] at hs; cases hs
    | some blk =>
      rw [hb] at hs
      exact S.slot_live hLp hb hs hv
  have hin : ∀ p, p.length = n + 1 → B p ≠ 0 → B p < L.blocks.length := by
    intro p hp hB
    obtain ⟨b, e, -⟩ := K.node p (S.lv.valid p hB).1 hp (.inr hB)
    exact (List.getElem?_eq_some_iff.1 e).1
  have hz := K.zero (by omega)
  obtain ⟨fl, f1, f2, f3, f4⟩ := K.free
  refine ⟨hz, ?_, fl, ?_, f2, fun hm => (f3 0 hm).1 rfl, f1.lt, ?_⟩
  · intro b i v hs
    by_cases hv : v = 0
    · rw [hv]; exact (List.getElem?_eq_some_iff.1 hz).1
    · obtain ⟨p, h1, -, h3⟩ := hslot b i v hs hv
      rw [← h3]; exact hin _ (by simp [h1]) (by omega)
  · have : ∀ {fl : List Nat} {r : Word}, Chain N L.blocks fl r → FreeList L r fl := by
      intro fl
      induction fl with
      | nil => intro r hr; rw [show r = freeEnd from hr]; exact .nil
      | cons f fs ih =>
        rintro r ⟨rfl, g2, next, g3, g4⟩
        exact .cons g2 g3 (by simp [freeBlock]) (ih g4)
    exact this f1
  · intro v hv hlt
    by_cases hm : v ∈ fl
    · refine .inl ⟨hm, fun b i hs => ?_⟩
      obtain ⟨p, h1, -, h3⟩ := hslot b i v hs (by omega)
      exact (f3 v hm).2 (p ++ [i]) (by simp [h1]) h3
    · refine .inr ⟨hm, ?_⟩
      rcases f4 v hv hlt with h' | ⟨p, hp, hB⟩
      · exact absurd h' hm
      · rcases eq_nil_or_append p with rfl | ⟨q, i, rfl⟩
        · simp at hp
        · have hvq := (S.lv.valid (q ++ [i]) (by omega)).1
          obtain ⟨hvq, hi⟩ := ValidPath.of_append hvq
          have hql : q.length = n := by simpa using hp
          obtain ⟨blk, e, hI⟩ := S.lv.block hvq (L := Lp) (by rw [hql]; exact hLp)
          refine ⟨B q, i, ?_, fun b' i' hs => ?_⟩
          · unfold slot
            rw [e]
            show blk.idx[i]? = _
            rw [(hI.slot i hi (by simp)).1, hB]
          · obtain ⟨p', h1, h2, h3⟩ := hslot b' i' v hs (by omega)
            have := K.inj (p' ++ [i']) (q ++ [i]) (by simp [h1]) hp (by omega) (by omega)
            rw [append_singleton_inj] at this
            obtain ⟨rfl, rfl⟩ := this
            exact ⟨h2.symm, rfl⟩

/-- After `exOpsS`: block 2 is free, blocks 1 and 3 are referenced once each by the root. -/
example : ∃ Lp L, exS.levels[0]? = some Lp ∧ exS.levels[1]? = some L ∧ L.rootEmpty = 2 ∧
    (L.blocks[2]?.map fun b => b.mask[0]?) = some (some freeEnd) ∧
    slot Lp 0 0 = some 1 ∧ slot Lp 0 1 = some 3 ∧ slot Lp 0 127 = some 0 :=
  ⟨(exS.levels[0]?).get (by decide +kernel), (exS.levels[1]?).get (by decide +kernel),
    by simp, by simp, by decide +kernel, by decide +kernel, by decide +kernel, by decide +kernel,
    by decide +kernel⟩

/-! ## C25: the child index types -/

/-- **C25**, widths 64 and 128 (every depth 1..8): as long as fewer than 2^32 elements are stored,
every position of a level's blocks (and of the values) is representable in the child index type of
the level above and no key is lost, in any history; up to depth 5 (width 64) resp. 4
(width 128) the condition on the number of elements is void. -/
theorem C25_index_types_partial (hc : Cfg N D) (hN : N = 1 ∨ N = 2) (ops : List (Op α))
    (hok : ∀ op ∈ ops, op.Ok (keyRange N D) dflt)
    (hcard : Always dflt (fun M => card (width N ^ D) M < 2 ^ 32) emptyMap ops) :
    (∃ t, run N D (Sparse.default α N D dflt) ops = .ok (t, (specRun dflt emptyMap ops).2) ∧
      ∀ k, k < keyRange N D → (impl α N D).get t k = .ok ((specRun dflt emptyMap ops).1 k)) ∧
    ∀ t, SparseReached N D dflt ops t →
      (∀ n L, t.levels[n + 1]? = some L → L.blocks.length ≤ idxCap (n + 1)) ∧
      t.values.length ≤ idxCap D := by
  have h : SparseHistory N D dflt ops :=
    ⟨hc, hok, hcard.mono fun M hM => fits_of_card hN M hM⟩
  refine ⟨C19_sparse_map h, fun t hr => ?_⟩
  obtain ⟨B, S⟩ := h.rep hr
  exact ⟨fun n L hL => (S.lv.level _ _ hL).cap (by omega), S.data.bound⟩

/-- `exOpsS` on width 128, depth 8, where 2^56 keys are in range. -/
example : ∃ t, run 2 8 (Sparse.default Nat 2 8 (some 9)) exOpsS =
    .ok (t, (specRun (some 9) emptyMap exOpsS).2) ∧
    ∀ k, k < keyRange 2 8 → (impl Nat 2 8).get t k = .ok ((specRun (some 9) emptyMap exOpsS).1 k) := by
  have hc : Cfg 2 8 := ⟨by decide, by decide, by decide⟩
  have hok : ∀ op ∈ exOpsS, op.Ok (keyRange 2 8) (some 9) := by
    intro op h
    have := exOpsS_history.ok op h
    have e1 : keyRange 2 2 = 16384 := by decide
    have e2 : keyRange 2 8 = 2 ^ 56 := by decide
    cases op <;> simp_all [Op.Ok] <;> omega
  exact (C25_index_types_partial hc (.inr rfl) exOpsS hok
    (SparseHistory.of_length hc (.inr rfl) (by decide) hok).2).1

/-- **C25** is false for width 256 (here depth 1, where the 256 keys are the whole range): after any
history leaving 255 elements, inserting the missing key reports success, but the key is lost: `get`
still returns `None`. Its bit is set in the mask, so that a cursor (and every iteration) is led to
it and reading the data there is undefined behaviour. -/
theorem C25_fails {ops : List (Op α)} {t : ST α} (h : SparseHistory 4 1 dflt ops)
    (hr : SparseReached 4 1 dflt ops t) {k : Nat} (hk : k < 256)
    (hnone : (specRun dflt emptyMap ops).1 k = none)
    (hfull : card 256 (specRun dflt emptyMap ops).1 = 255) (v : α) :
    ∃ out, Sparse.insert 4 1 t k v = .ok out ∧ out.called = true ∧
      (impl α 4 1).get out.tree k = .ok none ∧
      ∃ c0 mask c, (impl α 4 1).new out.tree = .ok c0 ∧
        (impl α 4 1).select c0 out.tree 0 0 = .ok (mask, c) ∧ mask.bit k = true ∧
        (impl α 4 1).curDataU c out.tree k = .error .ub := by
  obtain ⟨B, S⟩ := h.rep hr
  have hkr : k < keyRange 4 1 := by
    have : keyRange 4 1 = 256 := by decide
    omega
  have hpath : path (width 4) 1 k = [k] := by simp [path]
  have hB : B [k] = 0 := by
    rcases S.entry (k := k) (keyRange_lt hkr) with ⟨-, h2⟩ | ⟨w, h1, -⟩
    · rw [hpath] at h2; exact h2
    · rw [hnone] at h1; cases h1
  have hlen : t.values.length = 256 := by
    have := S.card_eq
    rw [show width 4 ^ 1 = 256 by decide, hfull] at this
    exact this
  obtain ⟨L, hL, K⟩ := S.lv.get (n := 0) (by decide)
  obtain ⟨b, hb, hI⟩ := S.lv.block (p := []) ValidPath.nil (L := L) (by simpa using hL)
  rw [S.lv.root] at hb
  have hslot := hI.get (i := k) (by simpa [width] using hk) (by simp)
  simp only [List.nil_append, hB] at hslot
  have hlev : ∀ j, levelIndices 4 1 j = .ok (path (width 4) 1 j) :=
    fun j => levelIndices_eq h.cfg.valid j
  have hw : width 4 = 256 := by decide
  obtain ⟨m', em, hml, hbit⟩ := setBit_spec true b.mask (k := k)
    (by rw [hI.mlen]; omega)
  have hins : b.insert 0 k 256 = .ok ⟨m', b.idx.set k 0⟩ := by
    unfold Block.insert
    rw [em]
    simp only [bind_ok]
    rw [setU_ok _ (by rw [hI.ilen]; omega)]
    rfl
  have hlb := (List.getElem?_eq_some_iff.1 hb).1
  have hll := (List.getElem?_eq_some_iff.1 hL).1
  let L' : Level := { L with blocks := L.blocks.set 0 ⟨m', b.idx.set k 0⟩ }
  let t' : ST α := ⟨t.levels.set 0 L', t.values ++ [some v], t.keys ++ [k], t.last ++ [(0, k)]⟩
  have hrun : Sparse.insert 4 1 t k v = .ok ⟨t', 256, [], true⟩ := by
    unfold Sparse.insert
    rw [indexFrom_eq, if_pos hkr]
    simp only [bind_ok]
    unfold getOrInsertImpl
    rw [hlev, hpath]
    have hloop : constLoop 0 (1 - 1) (insertStep 4 [k]) (t.levels, 0) =
        .ok ((t.levels, 0), false) := rfl
    simp only [bind_ok, List.getLast?_singleton, unwrapU, hloop, Nat.sub_self, getP_some hL,
      getU_some hb, hslot, if_true, hlen, hins, setU_ok _ hlb, pure_eq_ok]
    rfl
  have hL' : t'.levels[0]? = some L' := by
    show (t.levels.set 0 L')[0]? = _
    simp [hll]
  have hb' : L'.blocks[0]? = some ⟨m', b.idx.set k 0⟩ := by
    show (L.blocks.set 0 _)[0]? = _
    simp [hlb]
  have hz : (⟨m', b.idx.set k 0⟩ : Block).getOrZero k = .ok 0 := by
    apply getU_some
    show (b.idx.set k 0)[k]? = _
    rw [List.getElem?_set_self (by rw [hI.ilen]; omega)]
  have hlvl : t'.levels.length = 1 := by
    show (t.levels.set 0 L').length = 1
    simp [S.lv.len]
  refine ⟨_, hrun, rfl, ?_, List.replicate 0 none, m', [], rfl, ?_, ?_, ?_⟩
  · show (do let index ← indexFrom 4 1 k
             let indices ← levelIndices 4 1 index
             treeData t' indices) = _
    rw [indexFrom_eq, if_pos hkr]
    simp only [bind_ok, hlev, hpath]
    unfold treeData fetchBlockIndex fetchBlockIndices
    obtain ⟨x, hx⟩ : ∃ x, t'.levels = [x] := List.length_eq_one_iff.1 hlvl
    have : x = L' := by rw [hx] at hL'; simpa using hL'
    subst this
    rw [hx]
    have hk0 : getU [k] 0 = .ok k := rfl
    simp only [fetchFrom, getU_some hb', bind_ok, hk0, hz, pure_eq_ok, if_true]
  · show curSelect _ t' 0 0 = _
    unfold curSelect
    simp only [if_true, ne_eq, not_true, if_false, getP_some hL', bind_ok, getU_some hb', pure_eq_ok]
    rfl
  · rw [hbit k (by rw [hI.mlen]; omega)]; simp
  · show (do let d ← curData 1 [] t' k; unwrapU d) = _
    have hcb : curBlock 1 [] = .ok 0 := rfl
    unfold curData
    rw [hcb]
    simp only [bind_ok, Nat.sub_self, getP_some hL', getU_some hb', hz, if_true, pure_eq_ok]
    rfl

/-- The history of `C25_fails` exists: insert 0, 1, …, 254. -/
def exFull : List (Op Nat) := (List.range 255).map fun k => .insert k k

theorem exFull_history : SparseHistory 4 1 (none : Option Nat) exFull ∧
    (specRun none emptyMap exFull).1 255 = none ∧
    card 256 (specRun none emptyMap exFull).1 = 255 := by
  have hrun : ∀ (l : List Nat) (M : Nat → Option Nat),
      (specRun none M (l.map fun k => Op.insert k k)).1 = fun k => if k ∈ l then some k else M k := by
    intro l
    induction l with
    | nil => intro M; simp [specRun]
    | cons a l ih =>
      intro M
      have : (specRun none M (List.map (fun k => Op.insert k k) (a :: l))).1 =
          (specRun none (put M a (some a)) (l.map fun k => Op.insert k k)).1 := rfl
      rw [this, ih]
      funext k
      by_cases h1 : k ∈ l
      · simp [h1]
      · by_cases h2 : k = a
        · simp [h2, put]
        · simp [h1, h2, put]
  have hfin : (specRun none emptyMap exFull).1 = fun k => if k < 255 then some k else none := by
    unfold exFull
    rw [hrun]
    funext k
    simp [emptyMap]
  have hcard : ∀ M : Nat → Option Nat, M 255 = none → card 256 M ≤ 255 := by
    intro M h
    have h1 := card_put_none (n := 256) (k := 255) (by decide) h 0
    have h2 := card_le 256 (put M 255 (some 0))
    omega
  refine ⟨⟨⟨by decide, by decide, by decide⟩, ?_, ?_⟩, ?_, ?_⟩
  · intro op hop
    simp only [exFull, List.mem_map, List.mem_range] at hop
    obtain ⟨k, hk, rfl⟩ := hop
    have : keyRange 4 1 = 256 := by decide
    show k < keyRange 4 1
    omega
  · have : ∀ (l : List Nat) (M : Nat → Option Nat), (∀ k ∈ l, k < 255) → M 255 = none →
        Always none (fun M => M 255 = none) M (l.map fun k => Op.insert k k) := by
      intro l
      induction l with
      | nil => intro M _ h; exact h
      | cons a l ih =>
        intro M hl h
        refine ⟨h, ih (put M a (some a)) (fun k hk => hl k (by simp [hk])) ?_⟩
        have := hl a (by simp)
        simp [put, h, show ¬ (255 = a) by omega]
    refine (this (List.range 255) emptyMap (by simp) rfl).mono fun M hM => ?_
    have h1 := hcard M hM
    have hg := groups_le_card (width 4) 1 1 M
    rw [show width 4 ^ 1 = 256 by decide] at hg
    refine fits_of_groups M ?_ (fun _ => by omega) (fun h => absurd h (by decide))
    rw [show width 4 ^ 1 = 256 by decide]
    omega
  · rw [hfin]; rfl
  · rw [hfin]
    decide +kernel

/-- `C25_fails` applies: after inserting 0, …, 254, `insert(255, 7)` succeeds and the key is absent. -/
example : ∃ t out, SparseReached 4 1 none exFull t ∧ Sparse.insert 4 1 t 255 7 = .ok out ∧
    (impl Nat 4 1).get out.tree 255 = .ok none := by
  obtain ⟨h, h1, h2⟩ := exFull_history
  obtain ⟨t, e, -⟩ := h.reachCap (idxCap_ok 1) h.fits
  obtain ⟨out, a1, -, a2, -⟩ := C25_fails h ⟨_, e⟩ (k := 255) (by decide) h1 h2 7
  exact ⟨t, out, ⟨_, e⟩, a1, a2⟩

/-! ## C26: drop -/

/-- **C26**: dropping the tree after any supported history succeeds and drops the tree's default
value (if it has one) and exactly the stored values, each once. -/
theorem C26_drop (h : SparseHistory N D dflt ops) (hr : SparseReached N D dflt ops t) :
    ∃ vs, dropImpl dflt.isSome t = .ok (dflt.toList ++ vs) ∧
      List.Perm vs (valuesOf (width N ^ D) (specRun dflt emptyMap ops).1) := by
  obtain ⟨B, S⟩ := h.rep hr
  exact S.dropImpl_spec

example : SparseReached 2 2 (some 9) exOpsS exS ∧ dropImpl true exS = .ok [9, 56, 136, 404] :=
  ⟨exS_reached, by decide +kernel⟩

/-- The values handed to the tree by a history (for `get_or_insert`: the default, if it is used). -/
def givenS (dflt : Option α) (M : Nat → Option α) : List (Op α) → List α
  | [] => []
  | op :: ops =>
    (match op with
     | .insert _ v => [v]
     | .getOrInsert k d _ => if (M k).isNone then [d] else []
     | _ => []) ++ givenS dflt (op.spec dflt M).1 ops

/-- The values leaving the tree during a history: returned by `remove` or dropped by the call. -/
def takenS (dflt : Option α) (M : Nat → Option α) : List (Op α) → List α
  | [] => []
  | op :: ops =>
    (match op with
     | .remove k => (M k).toList
     | op => (op.spec dflt M).2.2) ++ takenS dflt (op.spec dflt M).1 ops

/-- Histories whose references are only read. -/
def ReadOnlyRefsS (ops : List (Op α)) : Prop :=
  ∀ op ∈ ops, (∀ k d g, op = .getOrInsert k d g → ∀ x, g x = x) ∧
    (∀ k g, op = .getMut k g → ∀ x, g x = x) ∧ ∀ g, op ≠ .mutValues g

theorem conservationS {n : Nat} : ∀ (ops : List (Op α)) (M : Nat → Option α), ReadOnlyRefsS ops →
    (∀ op ∈ ops, op.Ok n dflt) →
    List.Perm (valuesOf n (specRun dflt M ops).1 ++ takenS dflt M ops)
      (valuesOf n M ++ givenS dflt M ops) := by
  intro ops
  induction ops with
  | nil => intro M _ _; simp [specRun, takenS, givenS]
  | cons op ops ih =>
    intro M hro hr
    have IH := ih (op.spec dflt M).1 (fun o ho => hro o (by simp [ho]))
      (fun o ho => hr o (by simp [ho]))
    have hrun : (specRun dflt M (op :: ops)).1 = (specRun dflt (op.spec dflt M).1 ops).1 := rfl
    rw [hrun]
    have glue : ∀ A B : List α,
        List.Perm (valuesOf n (op.spec dflt M).1 ++ A) (valuesOf n M ++ B) →
        takenS dflt M (op :: ops) = A ++ takenS dflt (op.spec dflt M).1 ops →
        givenS dflt M (op :: ops) = B ++ givenS dflt (op.spec dflt M).1 ops →
        List.Perm (valuesOf n (specRun dflt (op.spec dflt M).1 ops).1 ++ takenS dflt M (op :: ops))
          (valuesOf n M ++ givenS dflt M (op :: ops)) := by
      intro A B h1 h2 h3
      rw [h2, h3]
      refine (List.perm_append_comm_assoc _ _ _).trans ?_
      refine (IH.append_left A).trans ?_
      rw [← List.append_assoc, ← List.append_assoc]
      exact ((List.perm_append_comm).trans h1).append_right _
    have hk := hr op (by simp)
    cases op with
    | insert k v => exact glue (M k).toList [v] (valuesOf_put hk M (some v)) rfl rfl
    | getOrInsert k d g =>
      have hg := (hro _ (by simp)).1 k d g rfl
      refine glue [] (if (M k).isNone then [d] else []) ?_ rfl rfl
      have hp := valuesOf_put hk M (some (g ((M k).getD d)))
      show List.Perm (valuesOf n (put M k (some (g ((M k).getD d)))) ++ []) _
      rw [hg] at hp ⊢
      cases hM : M k with
      | none => rw [hM] at hp; simpa using hp
      | some x =>
        rw [hM] at hp
        simp only [Option.getD_some, Option.toList_some] at hp ⊢
        have := (List.perm_append_right_iff [x]).1 hp
        simpa using this
    | remove k =>
      refine glue (M k).toList [] ?_ rfl rfl
      simpa [Op.spec] using valuesOf_put hk M none
    | get k => exact glue [] [] (by simp [Op.spec]) rfl rfl
    | getMut k g =>
      have hg := (hro _ (by simp)).2.1 k g rfl
      refine glue [] [] ?_ rfl rfl
      have : (Op.spec dflt M (.getMut k g)).1 = M := by
        funext x
        simp only [Op.spec, put]
        split
        · rename_i e
          subst e
          cases M x <;> simp [hg]
        · rfl
      rw [this]
    | getOrDefault k => exact glue [] [] (by simp [Op.spec]) rfl rfl
    | mutValues g => exact absurd rfl ((hro _ (by simp)).2.2 g)

/-- **C26**, conservation: over a whole life of a tree (any supported history whose references are
only read, then drop), the values handed in (including the tree's default value) are, as a multiset,
exactly the values returned by `remove`, dropped on overwrite, and dropped at the end: nothing is
lost or dropped twice. -/
theorem C26_conservation (h : SparseHistory N D dflt ops) (hro : ReadOnlyRefsS ops)
    (hr : SparseReached N D dflt ops t) :
    ∃ vs, dropImpl dflt.isSome t = .ok vs ∧
      List.Perm (vs ++ takenS dflt emptyMap ops) (dflt.toList ++ givenS dflt emptyMap ops) := by
  obtain ⟨vs, e, hp⟩ := C26_drop h hr
  refine ⟨_, e, ?_⟩
  rw [List.append_assoc]
  refine List.Perm.append_left _ ((hp.append_right _).trans ?_)
  have hok : ∀ op ∈ ops, op.Ok (width N ^ D) dflt := by
    intro op ho
    have := h.ok op ho
    cases op with
    | mutValues g => trivial
    | getOrDefault k => exact ⟨keyRange_lt this.1, this.2⟩
    | _ => exact keyRange_lt this
  refine (conservationS ops emptyMap hro hok).trans ?_
  have hz : valuesOf (width N ^ D) (emptyMap : Nat → Option α) = [] := by
    unfold valuesOf emptyMap
    simp
  rw [hz]; exact List.Perm.refl _

example : givenS (some 9) emptyMap exOpsS = [50, 1, 51, 7, 2] ∧
    takenS (some 9) emptyMap exOpsS = [50, 1] := by decide

/-! ## C45, C46 -/

/-- **C45**, SparseTree: a new tree of any shipped configuration answers `None` for every in-range
index and iterates nothing. -/
theorem C45_sparse_empty (hc : Cfg N D) (dflt : Option α) :
    (∀ k, k < keyRange N D → (impl α N D).get (Sparse.default α N D dflt) k = .ok none) ∧
    ∃ F, ∀ fuel, F ≤ fuel → ∀ n, (impl α N D).iterRun (Sparse.default α N D dflt) fuel n =
      .ok (List.replicate n none) := by
  have R0 : SRep N D idxCap dflt [] (Sparse.default α N D dflt) (fun _ => none) :=
    ⟨_, default_ss hc.pos (idxCap_ok D).one⟩
  have hT : IsTree (impl α N D) (Sparse.default α N D dflt) (fun _ => none) := by
    obtain ⟨T, K, L, hT⟩ := R0.lawful hc
    exact ⟨T, K, L.toLawful, fun i hi => hT _⟩
  refine ⟨fun k hk => get_spec hc R0 hk, ?_⟩
  obtain ⟨F, hF⟩ := contract_iter hT
  refine ⟨F, fun fuel hf n => ?_⟩
  rw [hF fuel hf n]
  have : listing (width (impl α N D).N ^ (impl α N D).D) (fun _ => (none : Option α)) = [] := by
    unfold listing
    simp
  rw [this]
  congr 1
  apply List.ext_getElem?
  intro j
  simp [List.getElem?_replicate]
  by_cases hj : j < n <;> simp [hj]

example : (impl Nat 4 7).get (Sparse.default Nat 4 7 none) 12345678901234567 = .ok none ∧
    (impl Nat 4 7).iterRun (Sparse.default Nat 4 7 none) 50 3 = .ok [none, none, none] := by
  decide +kernel

/-- **C46**, SparseTree: every operation taking an index panics on an out-of-range one, whatever the
state of the tree, i.e. before any access. -/
theorem C46_sparse_out_of_range {k : Nat} (hk : keyRange N D ≤ k) (t : ST α) (v : α) :
    Sparse.insert N D t k v = .error .panic ∧ getOrInsert N D t k v = .error .panic ∧
    remove N D t k = .error .panic ∧ (impl α N D).get t k = .error .panic ∧
    getMut N D t k = .error .panic ∧ getMutU N D t k = .error .panic ∧
    getOrDefault N D t k = .error .panic := by
  have hk' : ¬ k < keyRange N D := by omega
  have hm : getMut N D t k = .error .panic := by
    unfold getMut; rw [indexFrom_eq, if_neg hk']; rfl
  refine ⟨?_, ?_, ?_, ?_, hm, ?_, ?_⟩
  · unfold Sparse.insert; rw [indexFrom_eq, if_neg hk']; rfl
  · unfold getOrInsert; rw [indexFrom_eq, if_neg hk']; rfl
  · unfold remove; rw [indexFrom_eq, if_neg hk']; rfl
  · show (do let index ← indexFrom N D k
             let indices ← levelIndices N D index
             treeData t indices) = _
    rw [indexFrom_eq, if_neg hk']; rfl
  · unfold getMutU; rw [hm]; rfl
  · unfold getOrDefault; rw [indexFrom_eq, if_neg hk']; rfl

example : Sparse.insert 2 2 exS 16384 1 = .error .panic ∧ getMut 2 2 exS 16384 = .error .panic ∧
    getMut 2 2 exS 16383 = .ok none :=
  ⟨(C46_sparse_out_of_range (by decide) exS 1).1,
   (C46_sparse_out_of_range (by decide) exS 1).2.2.2.2.1, by decide +kernel⟩

end

end Hibit.Props
