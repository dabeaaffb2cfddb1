import Verif.Sparse.Groups
/-!
# SparseTree: histories of public operations
-/
namespace Hibit.Sparse
open Hibit

/-- The caller's use of a `&mut Data` returned by `get_or_insert`, `get_mut` or
`get_mut_unchecked` (sparse_tree.rs:370, 468, 487): replace the referenced value by `g` of it. The
result also has the value first seen. -/
def writeRef {α : Type} (t : ST α) (i : Nat) (g : α → α) : R (ST α × α) := do
  let old ← getU t.values i
  let old ← unwrapU old
  let values ← setU t.values i (some (g old))
  return ({ t with values := values }, old)

/-- The caller's use of sparse_tree.rs:511-519 `key_values_mut`: replace every listed value by `g`
of its key and itself. -/
def mutValues {α : Type} (t : ST α) (g : Nat → α → α) : R (ST α) := do
  let (ks, vs) ← keyValues t
  return { t with values := t.values.take 1 ++ List.zipWith (fun k v => v.map (g k)) ks vs }

/-- A public operation on a `SparseTree` (sparse_tree.rs:275-552 and `HibitTree::get`). -/
inductive Op (α : Type) where
  /-- `insert(k, v)` -/
  | insert (k : Nat) (v : α)
  /-- `get_or_insert(k)` where `Data::default()` is `d`; the returned reference is read and
  then overwritten with `g` of the value read -/
  | getOrInsert (k : Nat) (d : α) (g : α → α)
  /-- `remove(k)` -/
  | remove (k : Nat)
  /-- `get(k)` -/
  | get (k : Nat)
  /-- `get_mut(k)`; the reference, if any, is read and then overwritten with `g` of the value -/
  | getMut (k : Nat) (g : α → α)
  /-- `get_or_default(k)` (only trees with `ReqDefault<true>` have it) -/
  | getOrDefault (k : Nat)
  /-- `key_values_mut()`, overwriting every value `v` of key `k` with `g k v` -/
  | mutValues (g : Nat → α → α)

/-- One operation on the modelled tree; the output is the value observed by the caller and the
values dropped by the call. -/
def step {α : Type} (N D : Nat) (t : ST α) : Op α → R (ST α × Option α × List α)
  | .insert k v => do
    let out ← insert N D t k v
    return (out.tree, none, out.dropped)
  | .getOrInsert k d g => do
    let out ← getOrInsert N D t k d
    let (t, v) ← writeRef out.tree out.dataIndex g
    return (t, some v, out.dropped)
  | .remove k => do
    let (t, v) ← remove N D t k
    return (t, v, [])
  | .get k => do
    let v ← (impl α N D).get t k
    return (t, v, [])
  | .getMut k g => do
    let o ← getMut N D t k
    match o with
    | none => return (t, none, [])
    | some i =>
      let (t, v) ← writeRef t i g
      return (t, some v, [])
  | .getOrDefault k => do
    let v ← getOrDefault N D t k
    return (t, some v, [])
  | .mutValues g => do
    let t ← mutValues t g
    return (t, none, [])

/-- A history, from left to right. -/
def run {α : Type} (N D : Nat) (t : ST α) : List (Op α) → R (ST α × List (Option α × List α))
  | [] => .ok (t, [])
  | op :: ops => do
    let (t, o) ← step N D t op
    let (t, os) ← run N D t ops
    return (t, o :: os)

/-! ## Specification -/

/-- The key of an operation is in range, and `get_or_default` is only called on a tree that has a
default value. -/
def Op.Ok {α : Type} (n : Nat) (dflt : Option α) : Op α → Prop
  | .insert k _ => k < n
  | .getOrInsert k _ _ => k < n
  | .remove k => k < n
  | .get k => k < n
  | .getMut k _ => k < n
  | .getOrDefault k => k < n ∧ dflt.isSome
  | .mutValues _ => True

/-- What an operation does to a finite map: the new map, the value observed by the caller, and
the stored values destroyed by the call. -/
def Op.spec {α : Type} (dflt : Option α) (M : Nat → Option α) :
    Op α → (Nat → Option α) × Option α × List α
  | .insert k v => (put M k (some v), none, (M k).toList)
  | .getOrInsert k d g => (put M k (some (g ((M k).getD d))), some ((M k).getD d), [])
  | .remove k => (put M k none, M k, [])
  | .get k => (M, M k, [])
  | .getMut k g => (put M k ((M k).map g), M k, [])
  | .getOrDefault k => (M, (M k).or dflt, [])
  | .mutValues g => (fun k => (M k).map (g k), none, [])

/-- A history on a finite map. -/
def specRun {α : Type} (dflt : Option α) (M : Nat → Option α) : List (Op α) →
    (Nat → Option α) × List (Option α × List α)
  | [] => (M, [])
  | op :: ops =>
    let (M', o) := op.spec dflt M
    let (M'', os) := specRun dflt M' ops
    (M'', o :: os)

/-- Every state of the history satisfies `P`. -/
def Always {α : Type} (dflt : Option α) (P : (Nat → Option α) → Prop) (M : Nat → Option α) :
    List (Op α) → Prop
  | [] => P M
  | op :: ops => P M ∧ Always dflt P (op.spec dflt M).1 ops

theorem Always.head {α : Type} {dflt : Option α} {P : (Nat → Option α) → Prop}
    {M : Nat → Option α} {ops : List (Op α)} (h : Always dflt P M ops) : P M := by
  cases ops with
  | nil => exact h
  | cons op ops => exact h.1

theorem Always.mono {α : Type} {dflt : Option α} {P Q : (Nat → Option α) → Prop}
    (hPQ : ∀ M, P M → Q M) : ∀ {ops : List (Op α)} {M : Nat → Option α},
    Always dflt P M ops → Always dflt Q M ops := by
  intro ops
  induction ops with
  | nil => intro M h; exact hPQ M h
  | cons op ops ih => intro M h; exact ⟨hPQ M h.1, ih h.2⟩

/-! ## Refinement -/

variable {α : Type} {N D : Nat} {cap : Nat → Nat} {dflt : Option α} {Ph : List Nat} {t : ST α}
  {M : Nat → Option α} {B : List Nat → Nat}

theorem SS.writeRef_spec (S : SS N D cap dflt Ph t M B) {k : Nat} (hk : k < width N ^ D) {w : α}
    (hi : M k = some w) (g : α → α) :
    ∃ t', writeRef t (B (path (width N) D k)) g = .ok (t', w) ∧
      SS N D cap dflt Ph t' (put M k (some (g w))) B := by
  rcases S.entry hk with ⟨h, -⟩ | ⟨v, h1, h2, h3⟩
  · rw [hi] at h; cases h
  · rw [hi] at h1; cases h1
    refine ⟨_, ?_, S.setVal hk h2 (g w)⟩
    have hlt := S.data.lt (path_length _ _ _) h2
    unfold writeRef
    simp only [getU_some h3, bind_ok, unwrapU, setU_ok _ hlt, pure_eq_ok]

theorem SS.getMut_spec (hc : Cfg N D) (S : SS N D cap dflt Ph t M B) {k : Nat}
    (hk : k < keyRange N D) :
    getMut N D t k = .ok (if (M k).isSome then some (B (path (width N) D k)) else none) := by
  have hk' := Nat.lt_of_lt_of_le hk (keyRange_le N D)
  unfold getMut
  rw [indexFrom_eq, if_pos hk]
  simp only [bind_ok, levelIndices_eq hc.valid, S.fetch1 (validPath_path hk') (path_length _ _ _)]
  rcases S.entry hk' with ⟨h1, h2⟩ | ⟨v, h1, h2, h3⟩
  · simp [h1, h2]
  · simp [h1, h2, getU_some h3, unwrapU]

theorem SS.getOrDefault_spec (hc : Cfg N D) (S : SS N D cap dflt Ph t M B) {k : Nat}
    (hk : k < keyRange N D) {d : α} (hd : dflt = some d) :
    getOrDefault N D t k = .ok ((M k).getD d) := by
  have hk' := Nat.lt_of_lt_of_le hk (keyRange_le N D)
  unfold getOrDefault
  rw [indexFrom_eq, if_pos hk]
  simp only [bind_ok, levelIndices_eq hc.valid, S.fetch1 (validPath_path hk') (path_length _ _ _)]
  rcases S.entry hk' with ⟨h1, h2⟩ | ⟨v, h1, h2, h3⟩
  · have := S.data.zero
    rw [hd] at this
    rw [h1, h2, getU_some this]; rfl
  · rw [h1, getU_some h3]; rfl

theorem SS.keyValues_spec (S : SS N D cap dflt Ph t M B) :
    ∃ (ks : List Nat) (vs : List α), keyValues t = .ok (ks, vs.map some) ∧
      ks.length = vs.length ∧ ks.Nodup ∧
      ∀ k v, (∃ j : Nat, ks[j]? = some k ∧ vs[j]? = some v) ↔ k < width N ^ D ∧ M k = some v := by
  obtain ⟨vs, h1, h2, h3, h4⟩ := S.enumerate
  refine ⟨t.keys.drop 1, vs, ?_, by simp [h2], h3, h4⟩
  unfold keyValues
  rw [if_pos ⟨by omega, by rw [h1]; simp⟩, h1]
  rfl

theorem SS.mutValues_spec (S : SS N D cap dflt Ph t M B) (g : Nat → α → α) :
    ∃ t', mutValues t g = .ok t' ∧ SS N D cap dflt Ph t' (fun k => (M k).map (g k)) B := by
  obtain ⟨vs, h1, h2, h3, h4⟩ := S.enumerate
  have hkv : keyValues t = .ok (t.keys.drop 1, vs.map some) := by
    unfold keyValues
    rw [if_pos ⟨by omega, by rw [h1]; simp⟩, h1]; rfl
  have hz : ∀ (j k : Nat) (v : Option α), (t.keys.drop 1)[j]? = some k →
      (vs.map some)[j]? = some v →
      (List.zipWith (fun k (v : Option α) => v.map (g k)) (t.keys.drop 1) (vs.map some))[j]? =
        some (v.map (g k)) := by
    intro j k v q1 q2
    rw [List.getElem?_zipWith, q1, q2]
  generalize hzd : List.zipWith (fun k (v : Option α) => v.map (g k)) (t.keys.drop 1)
    (vs.map some) = zs at *
  have hzl : zs.length = vs.length := by rw [← hzd]; simp [h2]
  have hvl : t.values.length = vs.length + 1 := by rw [h1]; simp
  have hget : ∀ d, 1 ≤ d → ∀ k v, t.keys[d]? = some k → t.values[d]? = some (some v) →
      (dflt :: zs)[d]? = some (some (g k v)) := by
    intro d hd k v hk hv
    obtain ⟨d, rfl⟩ : ∃ e, d = e + 1 := ⟨d - 1, by omega⟩
    rw [h1, List.getElem?_cons_succ] at hv
    rw [List.getElem?_cons_succ,
      hz d k (some v) (by rw [List.getElem?_drop, Nat.add_comm]; exact hk) hv]
    rfl
  have V := S.data
  refine ⟨⟨t.levels, dflt :: zs, t.keys, t.last⟩, ?_, S.lv, S.exact,
    ⟨by simp [h2, hzl], by simp [hzl, V.lenL, hvl], ?_, rfl, V.keyOf, V.lastOf, ?_, ?_⟩, ?_⟩
  · unfold mutValues
    rw [hkv]
    simp only [bind_ok, pure_eq_ok, hzd]
    rw [h1]; rfl
  · have := V.bound
    simp [hzl]; omega
  · intro d q1 q2
    exact V.surj d q1 (by simp [hzl] at q2; omega)
  · intro d q1 q2
    have q3 : d < t.values.length := by simp [hzl] at q2; omega
    obtain ⟨v, hv⟩ := V.init d q1 q3
    exact ⟨_, hget d q1 _ v (List.getElem?_eq_getElem (by rw [V.lenK]; exact q3)) hv⟩
  · intro k
    by_cases hk : k < width N ^ D
    · rw [if_pos hk]
      rcases S.entry hk with ⟨q1, q2⟩ | ⟨v, q1, q2, q3⟩
      · rw [if_pos q2, q1]; rfl
      · have q4 := V.keyOf _ (path_length _ _ _) q2
        rw [unpath_path _ D k hk] at q4
        rw [if_neg q2, q1, hget _ (by omega) _ _ q4 q3]
        rfl
    · rw [if_neg hk, S.den, if_neg hk]; rfl

theorem dropSlice_map {l : List (Option α)} {vs : List α} (h : l = vs.map some) :
    dropSlice l = .ok vs := by
  subst h
  induction vs with
  | nil => rfl
  | cons v vs ih =>
    simp only [List.map_cons, dropSlice, unwrapU, bind_ok, ih, pure_eq_ok]

/-- sparse_tree.rs:522-532. -/
theorem SS.dropImpl_spec (S : SS N D cap dflt Ph t M B) :
    ∃ vs, dropImpl dflt.isSome t = .ok (dflt.toList ++ vs) ∧
      List.Perm vs (valuesOf (width N ^ D) M) := by
  obtain ⟨vs, g1, g2, g3, g4⟩ := S.enumerate
  obtain ⟨-, p2⟩ := values_perm (by simp [g2]) g3 g4
  refine ⟨vs, ?_, p2⟩
  unfold dropImpl
  rw [g1]
  cases dflt with
  | none => simp [dropSlice_map (rfl : vs.map some = _)]
  | some d => simp [dropSlice, unwrapU, dropSlice_map (rfl : vs.map some = _)]

theorem step_spec (hc : Cfg N D) (hcap : CapOk D cap) (R : SRep N D cap dflt Ph t M) {op : Op α}
    (hok : op.Ok (keyRange N D) dflt) (hfit : Fits (width N) D cap (occ Ph (op.spec dflt M).1)) :
    ∃ t', step N D t op = .ok (t', (op.spec dflt M).2) ∧
      SRep N D cap dflt Ph t' (op.spec dflt M).1 := by
  obtain ⟨B, S⟩ := R
  have hlt : ∀ {k}, k < keyRange N D → k < width N ^ D := fun h =>
    Nat.lt_of_lt_of_le h (keyRange_le N D)
  cases op with
  | insert k v =>
    have hk : k < keyRange N D := hok
    obtain ⟨out, B', e1, S', -, -, -, e2, -⟩ := S.getOrInsert_fits hc hcap (hlt hk) true v hfit
    simp only [if_true] at e2 S'
    refine ⟨out.tree, ?_, B', S'⟩
    simp only [step, Sparse.insert]
    rw [indexFrom_eq, if_pos hk]
    simp only [bind_ok, e1, pure_eq_ok, e2]
    rfl
  | getOrInsert k d g =>
    have hk : k < keyRange N D := hok
    obtain ⟨out, B', e1, S', e3, -, -, e2, -⟩ := S.getOrInsert_fits hc hcap (hlt hk) false d hfit
    simp only [Bool.false_eq_true, if_false] at e2 S'
    obtain ⟨t', e4, S''⟩ := S'.writeRef_spec (hlt hk) (w := (M k).getD d) (by simp [put]) g
    rw [← e3] at e4
    refine ⟨t', ?_, B', ?_⟩
    · simp only [step, getOrInsert]
      rw [indexFrom_eq, if_pos hk]
      simp only [bind_ok, e1, e4, pure_eq_ok, e2]
      rfl
    · have : put (put M k (some ((M k).getD d))) k (some (g ((M k).getD d))) =
          put M k (some (g ((M k).getD d))) := by
        funext x
        unfold put
        split <;> rfl
      rw [this] at S''
      exact S''
  | remove k =>
    obtain ⟨t', B', e1, S'⟩ := S.remove_spec hc hcap (k := k) hok
    refine ⟨t', ?_, B', S'⟩
    simp only [step, e1, bind_ok, pure_eq_ok]
    rfl
  | get k =>
    refine ⟨t, ?_, B, S⟩
    simp only [step, get_spec hc ⟨B, S⟩ (k := k) hok, bind_ok, pure_eq_ok]
    rfl
  | getMut k g =>
    have hk : k < keyRange N D := hok
    cases hM : M k with
    | none =>
      refine ⟨t, ?_, B, ?_⟩
      · simp only [step, S.getMut_spec hc hk, hM, bind_ok]
        simp [Op.spec, hM]
      · have : (Op.spec dflt M (.getMut k g)).1 = M := by
          funext x
          simp only [Op.spec, hM, put]
          split
          · rename_i e; rw [e, hM]; rfl
          · rfl
        rw [this]; exact S
    | some w =>
      obtain ⟨t', e4, S''⟩ := S.writeRef_spec (hlt hk) hM g
      refine ⟨t', ?_, B, ?_⟩
      · simp only [step, S.getMut_spec hc hk, hM, bind_ok, Option.isSome_some, if_true, e4,
          Op.spec, pure_eq_ok]
      · simp only [Op.spec, hM, Option.map_some]; exact S''
  | getOrDefault k =>
    obtain ⟨hk, hd⟩ : k < keyRange N D ∧ dflt.isSome := hok
    obtain ⟨d, rfl⟩ := Option.isSome_iff_exists.1 hd
    refine ⟨t, ?_, B, S⟩
    simp only [step, S.getOrDefault_spec hc hk rfl, bind_ok, pure_eq_ok, Op.spec]
    cases M k <;> rfl
  | mutValues g =>
    obtain ⟨t', e1, S'⟩ := S.mutValues_spec g
    refine ⟨t', ?_, B, S'⟩
    simp only [step, e1, bind_ok, pure_eq_ok]
    rfl

/-- **Refinement of histories.** -/
theorem run_spec (hc : Cfg N D) (hcap : CapOk D cap) : ∀ (ops : List (Op α)) (t : ST α)
    (M : Nat → Option α), SRep N D cap dflt [] t M → (∀ op ∈ ops, op.Ok (keyRange N D) dflt) →
    Always dflt (Fits (width N) D cap) M ops →
    ∃ t', run N D t ops = .ok (t', (specRun dflt M ops).2) ∧
      SRep N D cap dflt [] t' (specRun dflt M ops).1 := by
  intro ops
  induction ops with
  | nil => intro t M R _ _; exact ⟨t, rfl, R⟩
  | cons op ops ih =>
    intro t M R hr hb
    obtain ⟨t1, e1, R1⟩ := step_spec hc hcap R (hr op (by simp)) (fits_occ_nil hb.2.head)
    obtain ⟨t2, e2, R2⟩ := ih t1 _ R1 (fun o ho => hr o (by simp [ho])) hb.2
    refine ⟨t2, ?_, R2⟩
    simp only [run, e1, bind_ok, e2, pure_eq_ok]
    rfl

end Hibit.Sparse
