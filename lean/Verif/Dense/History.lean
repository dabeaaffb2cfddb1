import Verif.Dense.Drop
/-!
# DenseTree: histories of public operations
-/
namespace Hibit.Dense
open Hibit

/-- The caller's use of the `&mut T` returned by `get_or_insert` (dense_tree.rs:178-184): replace
the referenced value by `g` of it. The result also has the value first seen. -/
def writeRef {α : Type} (t : DT α) (i : Nat) (g : α → α) : R (DT α × α) := do
  let old ← getU t.data i
  let old ← unwrapU old
  let data ← setU t.data i (some (g old))
  return ({ t with data := data }, old)

/-- The caller's use of dense_tree.rs:301-309 `key_values_mut`: replace every listed value by `g`
of its key and itself. -/
def mutValues {α : Type} (t : DT α) (g : Nat → α → α) : R (DT α) := do
  let (ks, vs) ← keyValues t
  return { t with data := t.data.take 1 ++ List.zipWith (fun k v => v.map (g k)) ks vs }

/-- A public operation on a `DenseTree` (all of dense_tree.rs:178-309 and `HibitTree::get`). -/
inductive Op (α : Type) where
  /-- `insert(k, v)` -/
  | insert (k : Nat) (v : α)
  /-- `get_or_insert(k)` where `T::default()` is `dflt`; the returned reference is read and
  then overwritten with `g` of the value read -/
  | getOrInsert (k : Nat) (dflt : α) (g : α → α)
  /-- `remove(k)` -/
  | remove (k : Nat)
  /-- `get(k)` -/
  | get (k : Nat)
  /-- `key_values_mut()`, overwriting every value `v` of key `k` with `g k v` -/
  | mutValues (g : Nat → α → α)

/-- One operation on the modelled tree; the output is the value observed by the caller and the
values dropped by the call. -/
def step {α : Type} (D : Nat) (t : DT α) : Op α → R (DT α × Option α × List α)
  | .insert k v => do
    let out ← insert D t k v
    return (out.tree, none, out.dropped)
  | .getOrInsert k dflt g => do
    let out ← getOrInsert D t k dflt
    let (t, v) ← writeRef out.tree out.dataIndex g
    return (t, some v, out.dropped)
  | .remove k => do
    let (t, v) ← remove D t k
    return (t, v, [])
  | .get k => do
    let v ← (impl α D).get t k
    return (t, v, [])
  | .mutValues g => do
    let t ← mutValues t g
    return (t, none, [])

/-- A history, from left to right. -/
def run {α : Type} (D : Nat) (t : DT α) : List (Op α) → R (DT α × List (Option α × List α))
  | [] => .ok (t, [])
  | op :: ops => do
    let (t, o) ← step D t op
    let (t, os) ← run D t ops
    return (t, o :: os)

/-! ## Specification -/

/-- The keys of an operation are in range. -/
def Op.InRange {α : Type} (n : Nat) : Op α → Prop
  | .insert k _ => k < n
  | .getOrInsert k _ _ => k < n
  | .remove k => k < n
  | .get k => k < n
  | .mutValues _ => True

/-- What an operation does to a finite map: the new map, the value observed by the caller, and
the stored values destroyed by the call. -/
def Op.spec {α : Type} (M : Nat → Option α) : Op α → (Nat → Option α) × Option α × List α
  | .insert k v => (put M k (some v), none, (M k).toList)
  | .getOrInsert k dflt g => (put M k (some (g ((M k).getD dflt))), some ((M k).getD dflt), [])
  | .remove k => (put M k none, M k, [])
  | .get k => (M, M k, [])
  | .mutValues g => (fun k => (M k).map (g k), none, [])

/-- A history on a finite map. -/
def specRun {α : Type} (M : Nat → Option α) : List (Op α) →
    (Nat → Option α) × List (Option α × List α)
  | [] => (M, [])
  | op :: ops =>
    let (M', o) := op.spec M
    let (M'', os) := specRun M' ops
    (M'', o :: os)

/-- Every intermediate state of the history has fewer than `b` elements. -/
def Bounded {α : Type} (n b : Nat) (M : Nat → Option α) : List (Op α) → Prop
  | [] => card n M < b
  | op :: ops => card n M < b ∧ Bounded n b (op.spec M).1 ops

/-! ## Refinement -/

variable {α : Type} {ex : List Nat → Prop} {D : Nat} {t : DT α} {M : Nat → Option α} {op : Op α}

theorem put_eq_upd (M : Nat → Option α) (k : Nat) (o : Option α) : put M k o = upd M k o := rfl

theorem DRep.keys_lt (R : DRep ex D t M) {k : Nat} (hk : ¬ k < 64 ^ D) : M k = none := by
  obtain ⟨loc, K, S⟩ := R
  rw [S.den, if_neg hk]

/-- Overwriting the value at a data index. -/
theorem writeRef_spec {k : Nat} {w : α} {i : Nat} (R : DRep ex D t M) (hi : t.data[i]? = some (some w))
    (hk : k < 64 ^ D)
    (hKey : ∀ loc K, DS ex D t M loc K → K (path 64 D k) = some i) (g : α → α) :
    ∃ t', writeRef t i g = .ok (t', w) ∧ DRep ex D t' (upd M k (some (g w))) := by
  obtain ⟨loc, K, S⟩ := R
  have hK := hKey loc K S
  obtain ⟨hil, -⟩ := List.getElem?_eq_some_iff.1 hi
  refine ⟨{ t with data := t.data.set i (some (g w)) }, ?_, loc, K, S.tree, S.exact, ⟨?_, ?_, S.data.key0, ?_,
    S.data.keyOf, S.data.surj, ?_⟩, ?_⟩
  · unfold writeRef
    simp only [getU_some hi, bind_ok, unwrapU, setU_ok _ hil, pure_eq_ok]
  · simp [S.data.len]
  · simpa using S.data.bound
  · have := (S.data.keyOf _ _ hK).1
    simp only
    rw [List.getElem?_set_ne (by omega)]; exact S.data.data0
  · intro d' q1 q2
    by_cases e : d' = i
    · subst e; exact ⟨g w, by simp [hil]⟩
    · simp only at q2 ⊢
      rw [List.getElem?_set_ne (by omega)]
      exact S.data.init d' q1 (by simpa using q2)
  · intro k'
    by_cases e : k' = k
    · subst e
      rw [upd_same, if_pos hk, hK]
      simp [hil]
    · rw [upd_ne _ _ e, S.den]
      by_cases hk' : k' < 64 ^ D
      · rw [if_pos hk', if_pos hk']
        cases hK' : K (path 64 D k') with
        | none => rfl
        | some d' =>
          have : i ≠ d' := by
            intro e'
            subst e'
            have := S.data.inj S.tree hK hK'
            exact e (path_injOn hk' hk this.symm)
          simp only [Option.bind_some]
          rw [List.getElem?_set_ne this]
      · rw [if_neg hk', if_neg hk']

/-- The position holding the value of `k` is the one its cell points to. -/
theorem index_unique (R : DRep ex D t M) {i : Nat} {k : Nat} (hk : k < 64 ^ D)
    (hi : t.keys[i]? = some k) (h1 : 1 ≤ i) :
    ∀ loc K, DS ex D t M loc K → K (path 64 D k) = some i := by
  intro loc K S
  obtain ⟨hil, -⟩ := List.getElem?_eq_some_iff.1 hi
  obtain ⟨P, hP⟩ := S.data.surj i h1 hil
  have := (S.data.keyOf _ _ hP).2
  rw [hi] at this
  simp only [Option.some.injEq] at this
  obtain ⟨p1, p2⟩ := S.tree.kvalid _ _ hP
  have e := path_unpath p1
  rw [p2, ← this] at e
  rw [e]; exact hP

theorem mutValues_spec (R : DRep ex D t M) (g : Nat → α → α) :
    ∃ t', mutValues t g = .ok t' ∧ DRep ex D t' (fun k => (M k).map (g k)) := by
  obtain ⟨loc, K, S⟩ := R
  obtain ⟨vs, h1, h2, h3, h4⟩ := S.enumerate
  have hkv : keyValues t = .ok (t.keys.drop 1, vs.map some) := by
    unfold keyValues
    rw [if_pos ⟨by omega, by rw [h1]; simp⟩, h1]; rfl
  have hz : ∀ (j k : Nat) (v : Option α), (t.keys.drop 1)[j]? = some k →
      (vs.map some)[j]? = some v →
      (List.zipWith (fun k (v : Option α) => v.map (g k)) (t.keys.drop 1) (vs.map some))[j]? =
        some (v.map (g k)) := by
    intro j k v q1 q2
    rw [List.getElem?_zipWith, q1, q2]
  generalize hzd : List.zipWith (fun k (v : Option α) => v.map (g k)) (t.keys.drop 1) (vs.map some) = zs at *
  have hzl : zs.length = vs.length := by rw [← hzd]; simp [h2]
  have hget : ∀ d, 1 ≤ d → ∀ k v, t.keys[d]? = some k → t.data[d]? = some (some v) →
      (none :: zs)[d]? = some (some (g k v)) := by
    intro d hd k v hk hv
    obtain ⟨d, rfl⟩ : ∃ e, d = e + 1 := ⟨d - 1, by omega⟩
    rw [h1, List.getElem?_cons_succ] at hv
    rw [List.getElem?_cons_succ, hz d k (some v) (by rw [List.getElem?_drop, Nat.add_comm]; exact hk) hv]
    rfl
  have hget2 : ∀ d, 1 ≤ d → d < t.data.length → ∃ k v, t.keys[d]? = some k ∧
      t.data[d]? = some (some v) := by
    intro d q1 q2
    obtain ⟨v, hv⟩ := S.data.init d q1 q2
    exact ⟨_, v, List.getElem?_eq_getElem (by rw [S.data.len]; exact q2), hv⟩
  refine ⟨⟨t.heap, t.root, none :: zs, t.keys⟩, ?_, loc, K, S.tree, S.exact,
    ⟨?_, ?_, S.data.key0, rfl, S.data.keyOf, S.data.surj, ?_⟩, ?_⟩
  · unfold mutValues
    rw [hkv]
    simp only [bind_ok, pure_eq_ok, hzd]
    rw [h1]; rfl
  · simp [h2, hzl]
  · have := S.data.bound
    rw [h1] at this
    simp [hzl] at this ⊢; exact this
  · intro d q1 q2
    obtain ⟨k, v, g1, g2⟩ := hget2 d q1 (by rw [h1]; simp [hzl] at q2 ⊢; exact q2)
    exact ⟨_, hget d q1 k v g1 g2⟩
  · intro k
    rw [S.den]
    by_cases hk : k < 64 ^ D
    · rw [if_pos hk, if_pos hk]
      cases hK : K (path 64 D k) with
      | none => rfl
      | some d =>
        obtain ⟨q1, q2⟩ := S.data.keyOf _ _ hK
        obtain ⟨q3, v, q4⟩ := S.data.value hK
        rw [unpath_path 64 D k hk] at q2
        simp [q4, hget d q1 k v q2 q4]
    · rw [if_neg hk, if_neg hk]; rfl

/-- The reference returned by `get_or_insert` is the entry of `k`. -/
theorem getOrInsertImpl_key (R : DRep ex D t M) (h1 : 1 ≤ D) (h9 : D ≤ 9) {k : Nat}
    (hk : k < 64 ^ D) (ins : Bool) (v : α) {out : InsOut α}
    (he : getOrInsertImpl D t k ins v = .ok out) :
    out.tree.keys[out.dataIndex]? = some k ∧ 1 ≤ out.dataIndex := by
  obtain ⟨loc, K, S⟩ := R
  have hPv := validPath_path hk
  have hPl := path_length 64 D k
  obtain ⟨w, loc', b, e1, T1, hb, hs, hl⟩ := insertWalk_spec S.tree h9 h1 hPv hPl
  have hupath := unpath_path 64 D k hk
  have hlev : levelIndices 1 D k = .ok (path 64 D k) := levelIndices_ok h1 h9
  generalize path 64 D k = P at *
  rcases eq_nil_or_append P with rfl | ⟨p, i, rfl⟩
  · simp at hPl; omega
  have hpl : p.length + 1 = D := by simpa using hPl
  have htk : (p ++ [i]).take (D - 1) = p := by
    rw [List.take_append_of_le_length (by omega), List.take_of_length_le (by omega)]
  have hp2 := hb
  rw [htk] at hp2 hs
  have hread := read_slot T1 hp2 hs
  have hlast : (p ++ [i]).getLast? = some i := by simp
  obtain ⟨hpv, hi⟩ := ValidPath.of_append hPv
  obtain ⟨n, hd, -, -, -, hrep⟩ := T1.rep.deref hp2
  have hc := hrep.contains hi
  rw [cellsOf_term hpl] at hc
  unfold getOrInsertImpl at he
  simp only [hlev, bind_ok, e1, hread, hlast, unwrapU, hd] at he
  cases hK : K (p ++ [i]) with
  | some d =>
    rw [hK] at hc
    simp only [Option.map_some, Option.isSome_some] at hc
    obtain ⟨g1, ov, g2⟩ := S.data.value hK
    have hkey := S.data.keyOf _ _ hK
    rw [hupath] at hkey
    simp only [hc, bind_ok, if_true, T1.idx hp2 hK, Cell.asIdx, getU_some g2] at he
    cases ins with
    | true =>
      simp only [if_true, setU_ok _ g1, bind_ok, pure_eq_ok, Except.ok.injEq] at he
      subst he
      exact ⟨hkey.2, hkey.1⟩
    | false =>
      simp only [Bool.false_eq_true, if_false, bind_ok, pure_eq_ok, Except.ok.injEq] at he
      subst he
      exact ⟨hkey.2, hkey.1⟩
  | none =>
    rw [hK] at hc
    simp only [Option.map_none, Option.isSome_none] at hc
    obtain ⟨h', x, a', w', e2, e3, -⟩ := insertTerm_spec T1 hPv hpl hp2 hs hK
      (t.data.length % 2 ^ 32)
    simp only [hc, bind_ok, Bool.false_eq_true, if_false, e2, e3, pure_eq_ok,
      Except.ok.injEq] at he
    subst he
    obtain ⟨hn, -⟩ := List.getElem?_eq_some_iff.1 S.data.data0
    refine ⟨?_, by simp only; omega⟩
    simp only
    rw [← S.data.len]; simp

/-- `remove` is only supported from depth 2 on (see `Props/Dense.lean`, C18). -/
def Op.OkDepth {α : Type} (D : Nat) : Op α → Prop
  | .remove _ => 2 ≤ D
  | _ => 1 ≤ D

theorem step_spec (R : DRep ex D t M) (h2 : Op.OkDepth D op) (h9 : D ≤ 9)
    (hr : op.InRange (64 ^ D)) (hb : card (64 ^ D) (op.spec M).1 < 2 ^ 32) :
    ∃ t', step D t op = .ok (t', (op.spec M).2) ∧ DRep ex D t' (op.spec M).1 := by
  have h1 : 1 ≤ D := by
    cases op with
    | remove k => exact Nat.le_of_succ_le h2
    | _ => exact h2
  have hcard := R.card_eq
  cases op with
  | insert k v =>
    have hk : k < 64 ^ D := hr
    obtain ⟨out, e1, e2, -, e4, -⟩ := getOrInsertImpl_spec R h1 h9 hk true v (by
      intro hM
      have : card (64 ^ D) (put M k (some v)) < 2 ^ 32 := hb
      rw [card_put_none hk hM] at this
      omega)
    refine ⟨out.tree, ?_, e2⟩
    simp only [step, Dense.insert]
    rw [indexFrom_ok h9, if_pos hk]
    simp only [bind_ok, e1, pure_eq_ok, e4, if_true]
    rfl
  | getOrInsert k dflt g =>
    have hk : k < 64 ^ D := hr
    obtain ⟨out, e1, e2, e3, e4, -⟩ := getOrInsertImpl_spec R h1 h9 hk false dflt (by
      intro hM
      have : card (64 ^ D) (put M k (some (g ((M k).getD dflt)))) < 2 ^ 32 := hb
      rw [card_put_none hk hM] at this
      omega)
    obtain ⟨k1, k2⟩ := getOrInsertImpl_key R h1 h9 hk false dflt e1
    simp only [Bool.false_eq_true, if_false] at e2 e3 e4
    obtain ⟨t', e5, e6⟩ := writeRef_spec e2 e3 hk (index_unique e2 hk k1 k2) g
    refine ⟨t', ?_, ?_⟩
    · simp only [step, getOrInsert]
      rw [indexFrom_ok h9, if_pos hk]
      simp only [bind_ok, e1, e5, pure_eq_ok, e4]
      rfl
    · have : upd (upd M k (some ((M k).getD dflt))) k (some (g ((M k).getD dflt))) =
          put M k (some (g ((M k).getD dflt))) := by
        funext x
        unfold upd put
        split <;> rfl
      rw [this] at e6
      exact e6
  | remove k =>
    have hk : k < 64 ^ D := hr
    obtain ⟨t', e1, e2, -⟩ := remove_spec R h2 h9 hk
    refine ⟨t', ?_, e2⟩
    simp only [step, e1, bind_ok, pure_eq_ok]
    rfl
  | get k =>
    refine ⟨t, ?_, R⟩
    simp only [step, get_spec R h1 h9 hr, bind_ok, pure_eq_ok]
    rfl
  | mutValues g =>
    obtain ⟨t', e1, e2⟩ := mutValues_spec R g
    refine ⟨t', ?_, e2⟩
    simp only [step, e1, bind_ok, pure_eq_ok]
    rfl

/-- **Refinement of histories.** -/
theorem run_spec (h9 : D ≤ 9) : ∀ (ops : List (Op α)) (t : DT α) (M : Nat → Option α),
    DRep ex D t M → (∀ op ∈ ops, op.OkDepth D) → (∀ op ∈ ops, op.InRange (64 ^ D)) → Bounded (64 ^ D) (2 ^ 32) M ops →
    ∃ t', run D t ops = .ok (t', (specRun M ops).2) ∧ DRep ex D t' (specRun M ops).1 := by
  intro ops
  induction ops with
  | nil => intro t M R _ _ _; exact ⟨t, rfl, R⟩
  | cons op ops ih =>
    intro t M R h2 hr hb
    have hb' : card (64 ^ D) (op.spec M).1 < 2 ^ 32 := by
      have := hb.2
      cases ops with
      | nil => exact this
      | cons o os => exact this.1
    obtain ⟨t1, e1, R1⟩ := step_spec R (h2 op (by simp)) h9 (hr op (by simp)) hb'
    obtain ⟨t2, e2, R2⟩ := ih t1 _ R1 (fun o ho => h2 o (by simp [ho])) (fun o ho => hr o (by simp [ho])) hb.2
    refine ⟨t2, ?_, R2⟩
    simp only [run, e1, bind_ok, e2, pure_eq_ok]
    rfl

/-- Up to depth 5 the bound on the number of elements always holds. -/
theorem bounded_of_depth (h5 : D ≤ 5) : ∀ (ops : List (Op α)) (M : Nat → Option α),
    Bounded (64 ^ D) (2 ^ 32) M ops := by
  have hlt : ∀ M : Nat → Option α, card (64 ^ D) M < 2 ^ 32 := by
    intro M
    have h1 := card_le (64 ^ D) M
    have h2 : 64 ^ D ≤ 64 ^ 5 := Nat.pow_le_pow_right (by decide) h5
    have h3 : 64 ^ 5 < 2 ^ 32 := by decide
    omega
  intro ops
  induction ops with
  | nil => intro M; exact hlt M
  | cons op ops ih => intro M; exact ⟨hlt M, ih _⟩

end Hibit.Dense
