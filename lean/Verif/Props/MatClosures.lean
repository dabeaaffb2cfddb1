import Verif.Dense.MatE
import Verif.Props.Closures
import Verif.Props.Materialize
/-!
# C77: materializing a tree whose closures have effects
-/
namespace Hibit.Props
open Hibit Hibit.Dense

/-- Specification: run the given computations one after another; the first panic ends the run. -/
def runAll {σ δ : Type} : List (Nat × EM σ δ) → EM σ (List (Nat × δ))
  | [] => pure []
  | (k, m) :: l => do
    let d ← m
    let r ← runAll l
    return (k, d) :: r

/-! ## The oracle -/

section
variable {S C σ α ω : Type}

/-- The path of the cursor after selecting index `i` of level `n`. -/
def movePath (p : List Nat) : Nat → Nat → List Nat
  | 0, _ => []
  | n + 1, i => p.take n ++ [i]

open Classical in
/-- The tree `I` with its values replaced by their keys and the prediction `val`. -/
noncomputable def oracleImpl (I : EImpl S C σ α) (E : ESpec σ α) (val : Nat → Option ω) :
    Impl S (C × List Nat) (Nat × ω) where
  N := I.base.N
  D := I.base.D
  exact := I.base.exact
  data := fun _ k _ => .ok (if E.present k then (val k).map (fun w => (k, w)) else none)
  dataU := fun _ k _ => unwrapU (if E.present k then (val k).map (fun w => (k, w)) else none)
  new := fun s => do
    let c ← I.base.new s
    return (c, [])
  select := fun c s n i => do
    let mc ← I.base.select c.1 s n i
    return (mc.1, (mc.2, movePath c.2 n i))
  selectU := fun c s n i => do
    let mc ← I.base.selectU c.1 s n i
    return (mc.1, (mc.2, movePath c.2 n i))
  curData := fun _ _ _ => .error .ub
  curDataU := fun c s i =>
    let k := unpath (width I.base.N) (c.2.take (I.base.D - 1) ++ [i])
    if I.curDataU c.1 s i = E.curU k then unwrapU ((val k).map (fun w => (k, w))) else .error .ub

theorem take_prefix {p q : List Nat} (h : p <+: q) : q.take p.length = p := by
  obtain ⟨t, rfl⟩ := h
  simp

variable {I : EImpl S C σ α} {s : S} {E : ESpec σ α} {val : Nat → Option ω}

theorem oracle_isTree {T : TreeSpec Unit} {K : CursorRel C} (L : ELaw I s T K E)
    (hval : ∀ k, k < width I.base.N ^ I.base.D → E.present k = true → (val k).isSome = true) :
    IsTree (oracleImpl I E val) s (fun k => if E.present k then (val k).map (fun w => (k, w)) else none) := by
  have B := L.base
  have hcont : ∀ p, ValidPath (width I.base.N) p → p.length = I.base.D →
      (if E.present (unpath (width I.base.N) p) then
        (val (unpath (width I.base.N) p)).map (fun w => (unpath (width I.base.N) p, w)) else none).isSome =
      (T.content p).isSome := by
    intro p hp hl
    rw [← L.present_eq p hp hl]
    cases hb : E.present (unpath (width I.base.N) p) with
    | false => rfl
    | true => simp [hval _ (hl ▸ unpath_lt hp) hb]
  refine ⟨⟨T.bits, fun p => if E.present (unpath (width I.base.N) p) then
      (val (unpath (width I.base.N) p)).map (fun w => (unpath (width I.base.N) p, w)) else none⟩,
    ⟨fun c => K.inv c.1, fun c p => K.pos c.1 p ∧ p <+: c.2, fun c p => K.posC c.1 p ∧ p <+: c.2⟩,
    ?_, ?_⟩
  · refine ⟨B.cfg, ⟨B.wf.bits_lt, ?_, B.wf.upward, B.wf.exact_child⟩, ?_, ?_, ?_, ?_, ?_, ?_, ?_, ?_, ?_, ?_, ?_⟩
    · intro p i hp hl hi
      have hl : p.length + 1 = I.base.D := hl
      rw [B.wf.terminal p i hp hl hi]
      exact (hcont (p ++ [i]) (hp.append hi) (by simpa using hl)).symm
    · intro p hp hl
      rfl
    · intro p d hp hl h
      show unwrapU _ = _
      have h : (if E.present (unpath (width I.base.N) p) then
        (val (unpath (width I.base.N) p)).map (fun w => (unpath (width I.base.N) p, w)) else none) = some d := h
      show unwrapU (if E.present (unpath (width I.base.N) p) then
        (val (unpath (width I.base.N) p)).map (fun w => (unpath (width I.base.N) p, w)) else none) = _
      rw [h]
      rfl
    · obtain ⟨c, e, hc⟩ := B.new_ok
      refine ⟨(c, []), ?_, hc⟩
      show (I.base.new s >>= _) = _
      rw [e]
      rfl
    · intro c p h; exact B.pos_inv _ _ h.1
    · intro c p h; exact ⟨B.posC_pos _ _ h.1, h.2⟩
    · intro c p k h; exact ⟨B.pos_take _ _ _ h.1, (List.take_prefix _ _).trans h.2⟩
    · intro c i hc hi
      obtain ⟨m, c', e, h1, h2, h3⟩ := B.select_root c.1 i hc hi
      refine ⟨m, (c', []), ?_, h1, h2, h3, List.prefix_rfl⟩
      show (I.base.select c.1 s 0 i >>= _) = _
      rw [e]; rfl
    · intro c i hc hi
      obtain ⟨m, c', e, h1, h2, h3⟩ := B.selectU_root c.1 i hc hi
      refine ⟨m, (c', []), ?_, h1, h2, h3, List.prefix_rfl⟩
      show (I.base.selectU c.1 s 0 i >>= _) = _
      rw [e]; rfl
    · intro c p i hc hp hi hl
      obtain ⟨m, c', e, h1, h2, h3⟩ := B.select_node c.1 p i hc.1 hp hi hl
      refine ⟨m, (c', p ++ [i]), ?_, h1, h2, h3, List.prefix_rfl⟩
      show (I.base.select c.1 s (p.length + 1) i >>= _) = _
      rw [e]
      show Except.ok (m, (c', c.2.take p.length ++ [i])) = _
      rw [take_prefix hc.2]
    · intro c p i hc hp hi hl hb
      obtain ⟨m, c', e, h1, h2, h3⟩ := B.selectU_node c.1 p i hc.1 hp hi hl hb
      refine ⟨m, (c', p ++ [i]), ?_, h1, h2, h3, List.prefix_rfl⟩
      show (I.base.selectU c.1 s (p.length + 1) i >>= _) = _
      rw [e]
      show Except.ok (m, (c', c.2.take p.length ++ [i])) = _
      rw [take_prefix hc.2]
    · intro c p i d hc hp hi hl hd
      have hl : p.length + 1 = I.base.D := hl
      have htake : c.2.take (I.base.D - 1) = p := by
        rw [← hl]; exact take_prefix hc.2
      have hd : (if E.present (unpath (width I.base.N) (p ++ [i])) then
        (val (unpath (width I.base.N) (p ++ [i]))).map (fun w => (unpath (width I.base.N) (p ++ [i]), w))
        else none) = some d := hd
      have hs := hcont (p ++ [i]) (hp.append hi) (by simpa using hl)
      rw [hd] at hs
      have hcur := L.curDataU_eq c.1 p i hc.1 hp hi hl hs.symm
      simp only [oracleImpl]
      rw [htake, if_pos hcur]
      split at hd
      · rw [hd]; rfl
      · cases hd
  · intro k hk
    exact congrArg (fun k => if E.present k then (val k).map (fun w => (k, w)) else none) (unpath_path _ _ _ hk)

/-! ## The run, step by step -/

theorem bindE_inv {β γ : Type} {m : EM σ β} {f : β → EM σ γ} {z : σ} {o : Outcome γ} {z' : σ}
    (h : (m >>= f) z = .ok (o, z')) :
    (∃ b z1, m z = .ok (.returned b, z1) ∧ f b z1 = .ok (o, z')) ∨ (m z = .ok (.panicked, z') ∧ o = .panicked) := by
  have h : (m z >>= _) = _ := h
  obtain ⟨⟨o1, z1⟩, e1, e2⟩ := bind_inv h
  cases o1 with
  | returned b => exact .inl ⟨b, z1, e1, e2⟩
  | panicked => cases e2; exact .inr ⟨e1, rfl⟩

/-- Prepend a state. -/
def consZ (z : σ) (Z : Nat → σ) : Nat → σ
  | 0 => z
  | n + 1 => Z n

theorem runAll_returned : ∀ (l : List (Nat × EM σ α)) (z : σ) (kvs : List (Nat × α)) (z' : σ),
    runAll l z = .ok (.returned kvs, z') →
    ∃ Z : Nat → σ, Z 0 = z ∧ Z l.length = z' ∧ kvs.map (fun kv => kv.1) = l.map (fun km => km.1) ∧
      ∀ (j k : Nat) (m : EM σ α), l[j]? = some (k, m) →
        ∃ d, kvs[j]? = some (k, d) ∧ m (Z j) = .ok (.returned d, Z (j + 1))
  | [], z, kvs, z', h => by
    cases h
    exact ⟨fun _ => z, rfl, rfl, rfl, fun j k m h => by simp at h⟩
  | (k, m) :: l, z, kvs, z', h => by
    unfold runAll at h
    rcases bindE_inv h with ⟨d, z1, e1, h⟩ | ⟨-, h⟩
    · rcases bindE_inv h with ⟨r, z2, e2, h⟩ | ⟨-, h⟩
      · cases h
        obtain ⟨Z, h0, h1, h2, h3⟩ := runAll_returned l z1 r z' e2
        refine ⟨consZ z Z, rfl, h1, by simp [h2], ?_⟩
        intro j k' m' hj
        cases j with
        | zero =>
          simp only [List.getElem?_cons_zero, Option.some.injEq, Prod.mk.injEq] at hj
          obtain ⟨rfl, rfl⟩ := hj
          exact ⟨d, rfl, by show m z = .ok (_, Z 0); rw [h0]; exact e1⟩
        | succ j =>
          rw [List.getElem?_cons_succ] at hj
          obtain ⟨d', g1, g2⟩ := h3 j k' m' hj
          exact ⟨d', g1, g2⟩
      · cases h
    · cases h

theorem runAll_panicked : ∀ (l : List (Nat × EM σ α)) (z z' : σ), runAll l z = .ok (.panicked, z') →
    ∃ (J : Nat) (Z : Nat → σ) (kvs : List (Nat × α)), J < l.length ∧ Z 0 = z ∧
      (∀ (j k : Nat) (m : EM σ α), l[j]? = some (k, m) → j < J →
        ∃ d, kvs[j]? = some (k, d) ∧ m (Z j) = .ok (.returned d, Z (j + 1))) ∧
      kvs.map (fun kv => kv.1) = (l.map (fun km => km.1)).take J ∧
      ∀ (k : Nat) (m : EM σ α), l[J]? = some (k, m) → m (Z J) = .ok (.panicked, z')
  | [], z, z', h => by cases h
  | (k, m) :: l, z, z', h => by
    unfold runAll at h
    rcases bindE_inv h with ⟨d, z1, e1, h⟩ | ⟨e1, -⟩
    · rcases bindE_inv h with ⟨r, z2, e2, h⟩ | ⟨e2, -⟩
      · cases h
      · obtain ⟨J, Z, kvs, h0, h1, h2, h3, h4⟩ := runAll_panicked l z1 z' e2
        refine ⟨J + 1, consZ z Z, (k, d) :: kvs, by simp; omega, rfl, ?_, by simp [h3], ?_⟩
        · intro j k' m' hj hJ
          cases j with
          | zero =>
            simp only [List.getElem?_cons_zero, Option.some.injEq, Prod.mk.injEq] at hj
            obtain ⟨rfl, rfl⟩ := hj
            exact ⟨d, rfl, by show m z = .ok (_, Z 0); rw [h1]; exact e1⟩
          | succ j =>
            rw [List.getElem?_cons_succ] at hj
            obtain ⟨d', g1, g2⟩ := h2 j k' m' hj (by omega)
            exact ⟨d', g1, g2⟩
        · intro k' m' hj
          rw [List.getElem?_cons_succ] at hj
          exact h4 k' m' hj
    · refine ⟨0, fun _ => z, [], by simp, rfl, fun j _ _ _ h => by omega, by simp, ?_⟩
      intro k' m' hj
      simp only [List.getElem?_cons_zero, Option.some.injEq, Prod.mk.injEq] at hj
      obtain ⟨rfl, rfl⟩ := hj
      exact e1

theorem runAll_total {V : α → Prop} : ∀ (l : List (Nat × EM σ α)) (z : σ), (∀ e ∈ l, Total V e.2) →
    ∃ o z', runAll l z = .ok (o, z')
  | [], z, _ => ⟨_, z, rfl⟩
  | (k, m) :: l, z, h => by
    have t1 : Total V m := h (k, m) (by simp)
    have t2 : Total (fun _ => True) (runAll l) := fun z => by
      obtain ⟨o, z', e⟩ := runAll_total l z fun e he => h e (by simp [he])
      exact ⟨o, z', e, fun _ _ => trivial⟩
    have t3 : Total (fun _ => True) (runAll ((k, m) :: l)) :=
      t1.bind fun d _ => t2.bind fun r _ => Total.pure trivial
    obtain ⟨o, z', e, -⟩ := t3 z
    exact ⟨o, z', e⟩

/-! ## The oracle's tree -/

theorem oracle_curU {c : C × List Nat} {i : Nat} {kv : Nat × ω}
    (h : (oracleImpl I E val).curDataU c s i = .ok kv) : I.curDataU c.1 s i = E.curU kv.1 := by
  simp only [oracleImpl] at h
  split at h
  · rename_i hc
    rw [hc]
    obtain ⟨o, eo⟩ : ∃ o, val (unpath (width I.base.N) (c.2.take (I.base.D - 1) ++ [i])) = o := ⟨_, rfl⟩
    rw [eo] at h
    cases o with
    | none => cases h
    | some w => cases h; rfl
  · cases h

/-- `materialize` of a tree with the contract, exact or not. -/
theorem mat_any {J : Impl S C α} {M : Nat → Option α} (h : IsTree J s M) (hN : J.N = 1) (h9 : J.D ≤ 9)
    (hroom : card (64 ^ J.D) M < 2 ^ 32) (hne : J.exact = true ∨ J.D = 1 ∨ ∃ k, k < 64 ^ J.D ∧ M k ≠ none) :
    ∃ t, materialize J s = .ok t ∧ GetIterIs (Dense.impl α J.D) t M ∧
      keyValues t = .ok (keysOf (64 ^ J.D) M, (valuesOf (64 ^ J.D) M).map some) ∧
      (J.exact = true ∨ J.D = 1 → UsableDense J.D t (restrict (64 ^ J.D) M)) ∧
      (J.exact = false → BlockUsableDense J.D t (restrict (64 ^ J.D) M)) := by
  have hgi : ∀ t : DT α, (∀ k, (Dense.impl α J.D).get t k = J.get s k) →
      (∃ F, ∀ fuel, F ≤ fuel → ∀ n, (Dense.impl α J.D).iterRun t fuel n = J.iterRun s fuel n) →
      GetIterIs (Dense.impl α J.D) t M := by
    intro t g1 ⟨F1, g2⟩
    obtain ⟨k1, F2, k2⟩ := getIter h
    have hW : width J.N = width (Dense.impl α J.D).N := by rw [hN]; rfl
    rw [hW] at k1 k2
    refine ⟨fun i hi hi' => ?_, max F1 F2, fun fuel hf n => ?_⟩
    · rw [g1]; exact k1 i hi hi'
    · rw [g2 fuel (by omega) n]; exact k2 fuel (by omega) n
  cases hex : J.exact with
  | true =>
    obtain ⟨t, e, g1, g2, g3, g4⟩ := contract_materialize_exact h hN hex h9 hroom
    exact ⟨t, e, hgi t g1 g2, g3, fun _ => g4, fun e => by cases e⟩
  | false =>
    rcases contract_materialize h hN hex h9 hroom with ⟨t, e, ⟨g1, g2, g3, -, -⟩, g4, g5⟩ | ⟨-, h2, hno⟩
    · exact ⟨t, e, hgi t g1 g2, g3, fun hd => g5 (by simpa using hd), fun _ => g4⟩
    · rcases hne with hne | hne | ⟨k, hk, hne⟩
      · rw [hex] at hne; cases hne
      · omega
      · exact absurd (hno k hk) hne

theorem keyed_values (n : Nat) (E : ESpec σ α) (val : Nat → Option ω)
    (hval : ∀ k, k < n → E.present k = true → (val k).isSome = true) :
    (valuesOf n (fun k => if E.present k then (val k).map (fun w => (k, w)) else none)).map (fun kv => kv.1) =
      (List.range n).filter E.present ∧
    ∀ kv ∈ valuesOf n (fun k => if E.present k then (val k).map (fun w => (k, w)) else none),
      val kv.1 = some kv.2 := by
  unfold valuesOf
  constructor
  · have : ∀ l : List Nat, (∀ k ∈ l, k < n) →
        (l.filterMap (fun k => if E.present k then (val k).map (fun w => (k, w)) else none)).map
          (fun kv => kv.1) = l.filter E.present := by
      intro l
      induction l with
      | nil => intro _; rfl
      | cons k l ih =>
        intro hl
        have ih := ih fun k hk => hl k (by simp [hk])
        by_cases hp : E.present k = true
        · have := hval k (hl k (by simp)) hp
          obtain ⟨w, hw⟩ := Option.isSome_iff_exists.1 this
          simp [hp, hw, ih]
        · simp [hp, ih]
    exact this _ fun k hk => List.mem_range.1 hk
  · intro kv hkv
    rw [List.mem_filterMap] at hkv
    obtain ⟨k, -, h⟩ := hkv
    split at h
    · obtain ⟨w, hw, rfl⟩ := Option.map_eq_some_iff.1 h
      exact hw
    · cases h

/-- What the oracle's materialized vector says. -/
theorem oracle_data {t : DT (Nat × ω)} {vs : List (Nat × ω)} {ks : List Nat}
    (hk : keyValues t = .ok (ks, vs.map some)) :
    t.data.length = vs.length + 1 ∧ ∀ (j : Nat) (kv : Nat × ω), t.data[j + 1]? = some (some kv) → vs[j]? = some kv := by
  unfold keyValues at hk
  split at hk
  · rename_i h
    simp only [Except.ok.injEq, Prod.mk.injEq] at hk
    obtain ⟨-, hk⟩ := hk
    have hl : (t.data.drop 1).length = (vs.map some).length := by rw [hk]
    simp only [List.length_drop, List.length_map] at hl
    refine ⟨by omega, fun j kv hj => ?_⟩
    have : (t.data.drop 1)[j]? = some (some kv) := by rw [List.getElem?_drop, Nat.add_comm]; exact hj
    rw [hk, List.getElem?_map] at this
    cases hv : vs[j]? with
    | none => rw [hv] at this; cases this
    | some x => rw [hv] at this; simpa using this
  · cases hk

/-- The oracle's tree and its run next to `I`, given that the values are predicted up to number `J`. -/
theorem oracle_run {T : TreeSpec Unit} {K : CursorRel C} (L : ELaw I s T K E)
    (hval : ∀ k, k < width I.base.N ^ I.base.D → E.present k = true → (val k).isSome = true)
    (hN : I.base.N = 1) (h9 : I.base.D ≤ 9) (hroom : (elements (64 ^ I.base.D) E).length < 2 ^ 32)
    (hne : I.base.exact = true ∨ I.base.D = 1 ∨ ∃ k, k < 64 ^ I.base.D ∧ E.present k = true)
    (dec : Nat × ω → Option α) {J : Nat} {Z : Nat → σ} {zP : σ}
    (hgood : ∀ (j k : Nat) (w : ω), (elements (64 ^ I.base.D) E)[j]? = some (k, E.curU k) → val k = some w → j < J →
      ∃ a, dec (k, w) = some a ∧ E.curU k (Z j) = .ok (.returned a, Z (j + 1)))
    (hbad : ∀ k : Nat, (elements (64 ^ I.base.D) E)[J]? = some (k, E.curU k) → E.curU k (Z J) = .ok (.panicked, zP)) :
    ∃ t, materialize (oracleImpl I E val) s = .ok t ∧
      t.data.length = (elements (64 ^ I.base.D) E).length + 1 ∧
      (∀ (j : Nat) (kv : Nat × ω), t.data[j + 1]? = some (some kv) → val kv.1 = some kv.2) ∧
      Oracle (oracleImpl I E val) I s (fun c => c.1) dec E.curU t.data J Z zP := by
  have hW : width I.base.N = 64 := by rw [hN]; rfl
  have ht := oracle_isTree (val := val) L hval
  rw [hW] at hval
  obtain ⟨hv1, hv2⟩ := keyed_values (64 ^ I.base.D) E val hval
  have hsome : ∀ k, k < 64 ^ I.base.D →
      ((if E.present k then (val k).map (fun w => (k, w)) else none) : Option (Nat × ω)).isSome = E.present k := by
    intro k hk
    cases hb : E.present k with
    | false => rfl
    | true => simp [hval k hk hb]
  have hcard : card (64 ^ I.base.D) (fun k => if E.present k then (val k).map (fun w => (k, w)) else none) =
      (elements (64 ^ I.base.D) E).length := by
    unfold card keysOf elements
    rw [List.length_map]
    congr 1
    apply List.filter_congr
    intro k hk
    exact hsome k (List.mem_range.1 hk)
  obtain ⟨t, e, -, hkv, -⟩ := mat_any ht hN h9 (by
    show card (64 ^ I.base.D) _ < _
    rw [hcard]; exact hroom) (by
    rcases hne with h | h | ⟨k, hk, h⟩
    · exact .inl h
    · exact .inr (.inl h)
    · refine .inr (.inr ⟨k, hk, fun hn => ?_⟩)
      have := hsome k hk
      rw [hn, h] at this
      cases this)
  obtain ⟨hlen, hdat⟩ := oracle_data hkv
  have hlv : (valuesOf (64 ^ I.base.D) (fun k => if E.present k then (val k).map (fun w => (k, w)) else none)).length =
      (elements (64 ^ I.base.D) E).length := by
    unfold elements
    rw [List.length_map, ← hv1, List.length_map]
  have hel : ∀ (j : Nat) (kv : Nat × ω), t.data[j + 1]? = some (some kv) →
      (elements (64 ^ I.base.D) E)[j]? = some (kv.1, E.curU kv.1) ∧ val kv.1 = some kv.2 := by
    intro j kv hj
    have hj := hdat j kv hj
    constructor
    · unfold elements
      rw [← hv1, List.getElem?_map, List.getElem?_map]
      have hj : (valuesOf (64 ^ I.base.D)
        (fun k => if E.present k then (val k).map (fun w => (k, w)) else none))[j]? = some kv := hj
      rw [hj]
      rfl
    · exact hv2 kv (List.mem_of_getElem? hj)
  refine ⟨t, e, ?_, fun j kv hj => (hel j kv hj).2, ?_⟩
  · rw [hlen, ← hlv]; rfl
  · refine ⟨rfl, rfl, ?_, ?_, fun c i kv h => oracle_curU h, ?_, ?_⟩
    · intro c h
      have h : (I.base.new s >>= _) = _ := h
      obtain ⟨c', e1, e2⟩ := bind_inv h
      cases e2
      exact e1
    · intro c n i m c' h
      have h : (I.base.selectU c.1 s n i >>= _) = _ := h
      obtain ⟨mc, e1, e2⟩ := bind_inv h
      cases e2
      exact e1
    · rintro j ⟨k, w⟩ hj hJ
      obtain ⟨h1, h2⟩ := hel j (k, w) hj
      exact hgood j k w h1 h2 hJ
    · rintro ⟨k, w⟩ hj
      exact hbad k (hel J (k, w) hj).1

end

/-! ## The theorem -/

theorem lookup_of_nodup {β : Type} : ∀ (l : List (Nat × β)) (j k : Nat) (d : β), (l.map (fun kv => kv.1)).Nodup →
    l[j]? = some (k, d) → l.lookup k = some d
  | [], j, k, d, _, h => by simp at h
  | (k', d') :: l, 0, k, d, _, h => by
    simp only [List.getElem?_cons_zero, Option.some.injEq, Prod.mk.injEq] at h
    obtain ⟨rfl, rfl⟩ := h
    simp [List.lookup]
  | (k', d') :: l, j + 1, k, d, hn, h => by
    rw [List.getElem?_cons_succ] at h
    simp only [List.map_cons, List.nodup_cons] at hn
    have hne : k ≠ k' := by
      intro e
      subst e
      exact hn.1 (List.mem_map.2 ⟨(k, d), List.mem_of_getElem? h, rfl⟩)
    have : (k == k') = false := by simpa using hne
    rw [List.lookup_cons, this]
    exact lookup_of_nodup l j k d hn.2 h

theorem lookup_none {β : Type} (l : List (Nat × β)) (k : Nat) (h : k ∉ l.map (fun kv => kv.1)) :
    l.lookup k = none := by
  induction l with
  | nil => rfl
  | cons kv l ih =>
    simp only [List.map_cons, List.mem_cons, not_or] at h
    have : (k == kv.1) = false := by simpa using h.1
    rw [List.lookup_cons, this]
    exact ih h.2

section
variable {x : Bool} {S C σ δ : Type} {I : EImpl S C σ δ} {s : S} {E : ESpec σ δ} {V : δ → Prop}

/-- **C77**: materializing a tree whose closures have effects runs the closures of each element of the tree exactly
once, in ascending key order, and no others. `runAll (elements …)` is that run. If it returns the pairs `kvs`, then
`materialize` returns a tree with those keys and values, usable as after `C42`/`C43`. If a closure panics at some
element, the later ones are not run and `materialize` unwinds -- but if dropping a `T` does something (`glue`), unwinding is
undefined behaviour (`C49_fails_materialize`). Conditions: 64-bit masks, depth at most 9, fewer than 2^32 elements and,
because of `C43_fails_empty`, not an inexact tree of depth at least 2 without elements. -/
theorem C77_materialize (h : EBuilt x I s E V) (hN : I.base.N = 1) (h9 : I.base.D ≤ 9)
    (hroom : (elements (64 ^ I.base.D) E).length < 2 ^ 32)
    (hne : I.base.exact = true ∨ I.base.D = 1 ∨ ∃ k, k < 64 ^ I.base.D ∧ E.present k = true) (glue : Bool) (z : σ) :
    (∃ kvs z' t, runAll (elements (64 ^ I.base.D) E) z = .ok (.returned kvs, z') ∧
      materializeE glue I s z = .ok (.returned t, z') ∧
      keyValues t = .ok (kvs.map (fun kv => kv.1), kvs.map (fun kv => some kv.2)) ∧
      GetIterIs (Dense.impl δ I.base.D) t (fun k => kvs.lookup k) ∧
      (I.base.exact = true ∨ I.base.D = 1 → UsableDense I.base.D t (fun k => kvs.lookup k)) ∧
      (I.base.exact = false → BlockUsableDense I.base.D t (fun k => kvs.lookup k))) ∨
    (∃ z', runAll (elements (64 ^ I.base.D) E) z = .ok (.panicked, z') ∧
      materializeE glue I s z = if glue then .error .ub else .ok (.panicked, z')) := by
  obtain ⟨T, K, L⟩ := (ebuilt_law h).1
  have hsafe := ebuilt_safe h
  have hW : width I.base.N = 64 := by rw [hN]; rfl
  have hmem : ∀ (j k : Nat) (m : EM σ δ), (elements (64 ^ I.base.D) E)[j]? = some (k, m) →
      m = E.curU k ∧ k < 64 ^ I.base.D ∧ E.present k = true := by
    intro j k m hj
    have := List.mem_of_getElem? hj
    simp only [elements, List.mem_map, List.mem_filter, List.mem_range, Prod.mk.injEq] at this
    obtain ⟨k', ⟨h1, h2⟩, rfl, rfl⟩ := this
    exact ⟨rfl, h1, h2⟩
  have hkeys : (elements (64 ^ I.base.D) E).map (fun km => km.1) = (List.range (64 ^ I.base.D)).filter E.present := by
    unfold elements
    rw [List.map_map]
    exact List.map_id _
  have hnodup : ((List.range (64 ^ I.base.D)).filter E.present).Nodup := List.nodup_range.filter _
  obtain ⟨o, z', hrun⟩ := runAll_total (V := V) (elements (64 ^ I.base.D) E) z (by
    rintro ⟨k, m⟩ he
    obtain ⟨j, hj⟩ := List.getElem?_of_mem he
    obtain ⟨rfl, -, hp⟩ := hmem j k m hj
    exact hsafe.curU k hp)
  cases o with
  | panicked =>
    right
    refine ⟨z', hrun, ?_⟩
    obtain ⟨J, Z, kvs, hJ, hZ, hg, hk, hb⟩ := runAll_panicked _ z z' hrun
    have hnd : (kvs.map (fun kv => kv.1)).Nodup := by
      rw [hk, hkeys]
      exact (List.take_sublist _ _).nodup hnodup
    obtain ⟨t, e, hlen, -, O⟩ := oracle_run (val := fun _ => some ()) (dec := fun kv => kvs.lookup kv.1) (J := J)
      (Z := Z) (zP := z') L (fun _ _ _ => rfl) hN h9 hroom hne
      (by
        intro j k w hj _ hjJ
        obtain ⟨d, h1, h2⟩ := hg j k _ hj hjJ
        exact ⟨d, lookup_of_nodup kvs j k d hnd h1, h2⟩)
      (fun k hj => hb k _ hj)
    rw [← hZ]
    exact (materialize_sim O e List.prefix_rfl glue).2 (by omega)
  | returned kvs =>
    left
    obtain ⟨Z, hZ, hZ', hk, hg⟩ := runAll_returned _ z kvs z' hrun
    have hnd : (kvs.map (fun kv => kv.1)).Nodup := by rw [hk, hkeys]; exact hnodup
    have hmk : ∀ k, k ∈ kvs.map (fun kv => kv.1) ↔ k < 64 ^ I.base.D ∧ E.present k = true := by
      intro k
      rw [hk, hkeys, List.mem_filter, List.mem_range]
    have hvalp : ∀ k, k < width I.base.N ^ I.base.D → E.present k = true → (kvs.lookup k).isSome = true := by
      intro k hk1 hk2
      rw [hW] at hk1
      have := (hmk k).2 ⟨hk1, hk2⟩
      rw [List.mem_map] at this
      obtain ⟨⟨k', d⟩, h1, rfl⟩ := this
      obtain ⟨j, hj⟩ := List.getElem?_of_mem h1
      rw [lookup_of_nodup kvs j _ d hnd hj]
      rfl
    have hvaln : ∀ k, ¬(k < 64 ^ I.base.D ∧ E.present k = true) → kvs.lookup k = none := by
      intro k hk1
      exact lookup_none kvs k (by rw [hmk]; exact hk1)
    obtain ⟨t, e, hlen, hval, O⟩ := oracle_run (val := fun k => kvs.lookup k) (dec := fun kv => some kv.2)
      (J := (elements (64 ^ I.base.D) E).length) (Z := Z) (zP := z') L hvalp hN h9 hroom hne
      (by
        intro j k w hj hw _
        obtain ⟨d, h1, h2⟩ := hg j k _ hj
        have := lookup_of_nodup kvs j k d hnd h1
        rw [hw] at this
        cases this
        exact ⟨w, rfl, h2⟩)
      (fun k hj => by rw [List.getElem?_eq_none (Nat.le_refl _)] at hj; cases hj)
    -- the same tree from the pure source with those values
    let P := oracleImpl I E (fun k => kvs.lookup k)
    have hP : IsTree (mapImpl P (fun kv : Nat × δ => kv.2)) s (fun k => kvs.lookup k) := by
      obtain ⟨T', K', L', hc⟩ := map_isTree (fun kv : Nat × δ => kv.2) (oracle_isTree (val := fun k => kvs.lookup k) L hvalp)
      refine ⟨T', K', L', fun k hk => (hc k hk).trans ?_⟩
      have hk : k < width I.base.N ^ I.base.D := hk
      by_cases hp : E.present k = true
      · show Option.map _ (if E.present k = true then _ else none) = kvs.lookup k
        rw [if_pos hp]
        cases kvs.lookup k <;> rfl
      · show Option.map _ (if E.present k = true then _ else none) = kvs.lookup k
        rw [if_neg hp, hvaln k (fun h => hp h.2)]
        rfl
    have hcard : card (64 ^ I.base.D) (fun k => kvs.lookup k) = (elements (64 ^ I.base.D) E).length ∧
        keysOf (64 ^ I.base.D) (fun k => kvs.lookup k) = kvs.map (fun kv => kv.1) := by
      have : keysOf (64 ^ I.base.D) (fun k => kvs.lookup k) = (List.range (64 ^ I.base.D)).filter E.present := by
        unfold keysOf
        apply List.filter_congr
        intro k hk1
        rw [List.mem_range] at hk1
        by_cases hp : E.present k = true
        · rw [hp]; exact hvalp k (by rw [hW]; exact hk1) hp
        · show (kvs.lookup k).isSome = _
          rw [hvaln k (fun h => hp h.2)]
          simpa using hp
      refine ⟨?_, by rw [this, hk, hkeys]⟩
      unfold card
      rw [this, ← hkeys, List.length_map]
    obtain ⟨t2, e2, g1, g2, g3, g4⟩ := mat_any hP hN h9 (by
      show card (64 ^ I.base.D) _ < _
      rw [hcard.1]; exact hroom) (by
      rcases hne with h | h | ⟨k, hk1, hk2⟩
      · exact .inl h
      · exact .inr (.inl h)
      · refine .inr (.inr ⟨k, hk1, fun hn => ?_⟩)
        have := hvalp k (by rw [hW]; exact hk1) hk2
        rw [show kvs.lookup k = none from hn] at this
        cases this)
    have O2 : Oracle P (eleaf (σ := Unit) (mapImpl P (fun kv : Nat × δ => kv.2))) s id (fun kv => some kv.2)
        (fun k => EM.lift (unwrapU (kvs.lookup k))) t.data (elements (64 ^ I.base.D) E).length (fun _ => ()) () := by
      refine ⟨rfl, rfl, fun c h => h, fun c n i m c' h => h, ?_, ?_, ?_⟩
      · intro c i kv hkv
        show EM.lift (P.curDataU c s i >>= _) = _
        rw [hkv]
        have : kvs.lookup kv.1 = some kv.2 := by
          simp only [P, oracleImpl] at hkv
          split at hkv
          · obtain ⟨o, eo⟩ : ∃ o, kvs.lookup (unpath (width I.base.N) (c.2.take (I.base.D - 1) ++ [i])) = o := ⟨_, rfl⟩
            rw [eo] at hkv
            cases o with
            | none => cases hkv
            | some w => cases hkv; exact eo
          · cases hkv
        rw [this]
        rfl
      · intro j kv hj _
        refine ⟨kv.2, rfl, ?_⟩
        rw [hval j kv hj]
        rfl
      · intro kv hj
        rw [List.getElem?_eq_none (by omega)] at hj
        cases hj
    have r1 := (materialize_sim O e List.prefix_rfl glue).1 (by omega)
    have r2 := (materialize_sim O2 e List.prefix_rfl false).1 (by omega)
    rw [materializeE_leaf, e2] at r2
    have ht : t2 = mapDT (fun kv => some kv.2) t := by
      simp only [bind_ok, pure_eq_ok, Except.ok.injEq, Prod.mk.injEq, Outcome.returned.injEq, and_true] at r2
      exact r2
    rw [hZ, hlen, Nat.add_sub_cancel, hZ', ← ht] at r1
    have hrestr : restrict (64 ^ I.base.D) (fun k => kvs.lookup k) = fun k => kvs.lookup k := by
      funext k
      unfold restrict
      split
      · rfl
      · rename_i hk1
        exact (hvaln k (fun h => hk1 h.1)).symm
    have hD : (mapImpl P (fun kv : Nat × δ => kv.2)).D = I.base.D := rfl
    rw [hD, hrestr] at g3 g4
    rw [hD] at g1 g2
    refine ⟨kvs, z', t2, hrun, r1, ?_, g1, g3, g4⟩
    rw [g2, hcard.2]
    congr 2
    have : ∀ l : List (Nat × δ), (∀ kv ∈ l, kvs.lookup kv.1 = some kv.2) →
        (l.map (fun kv => kv.1)).filterMap (fun k => kvs.lookup k) = l.map (fun kv => kv.2) := by
      intro l
      induction l with
      | nil => intro _; rfl
      | cons kv l ih =>
        intro hl
        simp only [List.map_cons, List.filterMap_cons, hl kv (by simp)]
        rw [ih fun kv h => hl kv (by simp [h])]
    have hv : valuesOf (64 ^ I.base.D) (fun k => kvs.lookup k) = kvs.map (fun kv => kv.2) := by
      rw [← this kvs (fun kv h => by
        obtain ⟨j, hj⟩ := List.getElem?_of_mem h
        exact lookup_of_nodup kvs j kv.1 kv.2 hnd hj), ← hcard.2]
      unfold valuesOf keysOf
      rw [List.filterMap_filter]
      apply filterMap_range_congr
      intro k _
      show kvs.lookup k = if (kvs.lookup k).isSome = true then kvs.lookup k else none
      split
      · rfl
      · rename_i hn
        cases e : kvs.lookup k with
        | none => rfl
        | some v => rw [e] at hn; exact absurd rfl hn
    rw [hv, List.map_map]
    rfl

end

/-! ## `map` -/

section
variable {x : Bool} {S C δ ε : Type} {I : Impl S C δ} {a : S} {A : Nat → Option δ}

/-- The arguments `g` is called with on the values `vs`, in this order: up to the first on which it panics. -/
def callsUntil (g : δ → Outcome ε) : List δ → List δ
  | [] => []
  | v :: vs =>
    match g v with
    | .returned _ => v :: callsUntil g vs
    | .panicked => [v]

/-- `g` on every value, if it panics on none of them. -/
def mapAll (g : δ → Outcome ε) : List (Nat × δ) → Option (List (Nat × ε))
  | [] => some []
  | (k, v) :: l =>
    match g v, mapAll g l with
    | .returned w, some r => some ((k, w) :: r)
    | _, _ => none

theorem runAll_logged (g : δ → Outcome ε) : ∀ (l : List (Nat × δ)) (log : List δ),
    runAll (l.map (fun e => (e.1, logged g e.2))) log =
      .ok (match mapAll g l with | some r => .returned r | none => .panicked,
        log ++ callsUntil g (l.map (fun e => e.2)))
  | [], log => by simp [runAll, mapAll, callsUntil]; rfl
  | (k, v) :: l, log => by
    have ih := runAll_logged g l (log ++ [v])
    show ((do
      let d ← logged g v
      let r ← runAll (l.map (fun e => (e.1, logged g e.2)))
      return (k, d) :: r : EM (List δ) (List (Nat × ε))) log) = _
    show (Except.ok (g v, log ++ [v]) >>= _) = _
    simp only [bind_ok, mapAll, callsUntil, List.map_cons]
    cases hg : g v with
    | panicked => simp
    | returned w =>
      show (runAll (l.map (fun e => (e.1, logged g e.2))) (log ++ [v]) >>= _) = _
      rw [ih]
      simp only [bind_ok]
      cases mapAll g l with
      | none => simp
      | some r => simp; rfl

theorem mapAll_none {g : δ → Outcome ε} : ∀ {l : List (Nat × δ)}, mapAll g l = none ↔ ∃ e ∈ l, g e.2 = .panicked
  | [] => by simp [mapAll]
  | (k, v) :: l => by
    have ih := mapAll_none (g := g) (l := l)
    unfold mapAll
    cases hg : g v with
    | panicked => simp [hg]
    | returned w =>
      cases hm : mapAll g l with
      | none =>
        obtain ⟨e, h1, h2⟩ := ih.1 hm
        simp only [true_iff]
        exact ⟨e, by simp [h1], h2⟩
      | some r =>
        constructor
        · intro h; cases h
        · rintro ⟨e, h1, h2⟩
          rcases List.mem_cons.1 h1 with rfl | h1
          · rw [hg] at h2; cases h2
          · rw [ih.2 ⟨e, h1, h2⟩] at hm; cases hm

/-- **C77**, the calls of `map`: `materialize(map(a, g))` calls `g` on the values of `a` in key order, each once. If `g`
panics on none of them, the result has the keys of `a` with the values `g` returned; otherwise the call on which `g`
panics is the last one, and `materialize` unwinds (or has undefined behaviour, see `C77_materialize`). -/
theorem C77_map (ha : Built x I a A) (hN : I.N = 1) (h9 : I.D ≤ 9)
    (hroom : (listing (64 ^ I.D) A).length < 2 ^ 32) (hne : I.exact = true ∨ I.D = 1 ∨ listing (64 ^ I.D) A ≠ [])
    (g : δ → Outcome ε) (glue : Bool) :
    (∀ kvs, mapAll g (listing (64 ^ I.D) A) = some kvs →
      ∃ t, materializeE glue (emap (eleaf I) (logged g)) a [] =
          .ok (.returned t, (listing (64 ^ I.D) A).map (fun e => e.2)) ∧
        keyValues t = .ok (kvs.map (fun kv => kv.1), kvs.map (fun kv => some kv.2)) ∧
        GetIterIs (Dense.impl ε I.D) t (fun k => kvs.lookup k)) ∧
    (mapAll g (listing (64 ^ I.D) A) = none →
      materializeE glue (emap (eleaf I) (logged g)) a [] =
        if glue then .error .ub
        else .ok (.panicked, callsUntil g ((listing (64 ^ I.D) A).map (fun e => e.2)))) := by
  have he : elements (64 ^ I.D) (mapE (leafE A) (logged g)) =
      (listing (64 ^ I.D) A).map (fun e => (e.1, logged g e.2)) := by
    refine elements_leaf (64 ^ I.D) A (mapE (leafE A) (logged g)) (fun _ v => logged g v) (fun _ => rfl) ?_
    intro k v h
    show EM.lift (unwrapU (A k)) >>= logged g = _
    rw [leafU h, EM.pure_bind]
  have hcalls : ∀ l : List (Nat × δ), mapAll g l ≠ none → callsUntil g (l.map (fun e => e.2)) = l.map (fun e => e.2) := by
    intro l
    induction l with
    | nil => intro _; rfl
    | cons e l ih =>
      obtain ⟨k, v⟩ := e
      intro h
      unfold mapAll at h
      simp only [List.map_cons, callsUntil]
      cases hg : g v with
      | panicked => rw [hg] at h; simp at h
      | returned w =>
        rw [hg] at h
        simp only
        rw [ih]
        intro hm
        rw [hm] at h
        simp at h
  have key := C77_materialize (map_ebuilt ha (logged g) fun _ v _ => logged_total g v) hN h9
    (by show (elements (64 ^ I.D) _).length < _; rw [he, List.length_map]; exact hroom)
    (by
      rcases hne with h | h | h
      · exact .inl h
      · exact .inr (.inl h)
      · refine .inr (.inr ?_)
        obtain ⟨e, he⟩ := List.exists_mem_of_ne_nil _ h
        unfold listing at he
        rw [List.mem_filterMap] at he
        obtain ⟨k, hk, h⟩ := he
        rw [List.mem_range] at hk
        refine ⟨k, hk, ?_⟩
        show (A k).isSome = true
        cases hA : A k with
        | none => rw [hA] at h; cases h
        | some v => rfl) glue []
  have hrun := runAll_logged g (listing (64 ^ I.D) A) []
  rw [← he] at hrun
  rcases key with ⟨kvs, z', t, h1, h2, h3, h4, -⟩ | ⟨z', h1, h2⟩
  · rw [show runAll (elements (64 ^ I.D) (mapE (leafE A) (logged g))) [] = _ from h1] at hrun
    constructor
    · intro r hm
      rw [hm] at hrun
      simp only [List.nil_append, Except.ok.injEq, Prod.mk.injEq, Outcome.returned.injEq] at hrun
      obtain ⟨rfl, rfl⟩ := hrun
      rw [hcalls _ (by rw [hm]; simp)] at h2
      exact ⟨t, h2, h3, h4⟩
    · intro hm
      rw [hm] at hrun
      simp at hrun
  · rw [show runAll (elements (64 ^ I.D) (mapE (leafE A) (logged g))) [] = _ from h1] at hrun
    constructor
    · intro r hm
      rw [hm] at hrun
      simp at hrun
    · intro hm
      rw [hm] at hrun
      simp only [List.nil_append, Except.ok.injEq, Prod.mk.injEq, true_and] at hrun
      rw [hrun] at h2
      exact h2

end

/-! ## Concrete cases -/

/-- `C77_map` applies to `exD`. -/
example : ∃ t, materializeE true (emap (eleaf (Dense.impl Nat 2)) (logged fun v => .returned (v + 1))) exD [] =
    .ok (.returned t, [56, 72, 202]) := by
  have e : listing (64 ^ 2) exDM = [(5, 56), (64, 72), (200, 202)] := by decide +kernel
  have hl : (listing (64 ^ (Dense.impl Nat 2).D) exDM).length = 3 := congrArg List.length e
  have hr : (listing (64 ^ (Dense.impl Nat 2).D) exDM).length < 2 ^ 32 := by rw [hl]; decide
  have := C77_map (ε := Nat) exD_built rfl (by decide) hr (.inl rfl) (fun v => .returned (v + 1)) true
  have h : mapAll (fun v => Outcome.returned (v + 1)) (listing (64 ^ (Dense.impl Nat 2).D) exDM) =
      some [(5, 57), (64, 73), (200, 203)] := by
    show mapAll _ (listing (64 ^ 2) exDM) = _
    rw [e]; rfl
  obtain ⟨t, h1, -⟩ := this.1 _ h
  have e2 : (listing (64 ^ (Dense.impl Nat 2).D) exDM).map (fun e => e.2) = [56, 72, 202] := by
    show (listing (64 ^ 2) exDM).map _ = _
    rw [e]; rfl
  rw [e2] at h1
  exact ⟨t, h1⟩

/-- Keys 5, 64, 200: three calls, in key order, and the tree holds what they returned. -/
example : (do
    let r ← materializeE true (emap (eleaf (Dense.impl Nat 2)) loggedL) exD []
    match r with
    | (.returned t, log) => do
      let kv ← keyValues t
      let g ← (Dense.impl Nat 2).get t 64
      return (kv, g, log)
    | (.panicked, _) => .error .panic : R _) =
    .ok (([5, 64, 200], [some 57, some 73, some 203]), some 73, [.inl 56, .inl 72, .inl 202]) := by decide +kernel

/-- The closure panics on the value of 64: that of 200 is not run. If the values have drop glue, undefined behaviour. -/
example : (do
    let r ← materializeE false (emap (eleaf (Dense.impl Nat 2)) (logged exClosure)) exD []
    match r with
    | (.returned _, _) => .error .ub
    | (.panicked, log) => return log : R _) = .ok [56, 72] ∧
    (match materializeE true (emap (eleaf (Dense.impl Nat 2)) (logged exClosure)) exD [] with
    | .error .ub => true
    | _ => false) = true := by decide +kernel

/-- An inexact source: the intersection with `exU` runs both closures at key 5 only. -/
example : (do
    let r ← materializeE true exEInter (exD, exU) []
    match r with
    | (.returned t, log) => do
      let kv ← keyValues t
      return (kv, log)
    | (.panicked, _) => .error .panic : R _) =
    .ok (([5], [some (57, 2)]), [.inl 56, .inr 2]) := by decide +kernel

/-- `C77_materialize` applies to that intersection. -/
example (glue : Bool) : ∃ kvs z' t,
    runAll (elements (64 ^ 2) (interE (mapE (leafE exDM) loggedL) (mapE (leafE exUM) loggedR))) [] =
      .ok (.returned kvs, z') ∧
    materializeE glue exEInter (exD, exU) [] = .ok (.returned t, z') ∧
    keyValues t = .ok (kvs.map (fun kv => kv.1), kvs.map (fun kv => some kv.2)) := by
  have hl : (elements (64 ^ 2) (interE (mapE (leafE exDM) loggedL) (mapE (leafE exUM) loggedR))).map
      (fun km => km.1) = [5] := by decide +kernel
  rcases C77_materialize exEInter_built rfl (by decide) (by
      show (elements (64 ^ 2) _).length < _
      have := congrArg List.length hl
      rw [List.length_map] at this
      rw [this]
      decide) (.inr (.inr ⟨5, by decide, by decide +kernel⟩)) glue [] with
    ⟨kvs, z', t, h1, h2, h3, -⟩ | ⟨z', h1, -⟩
  · exact ⟨kvs, z', t, h1, h2, h3⟩
  · exfalso
    have : (match runAll (elements (64 ^ 2) (interE (mapE (leafE exDM) loggedL) (mapE (leafE exUM) loggedR))) []
      with | .ok (.panicked, _) => true | _ => false) = false := by decide +kernel
    rw [show runAll (elements (64 ^ 2) (interE (mapE (leafE exDM) loggedL) (mapE (leafE exUM) loggedR))) [] = _
      from h1] at this
    cases this

end Hibit.Props
