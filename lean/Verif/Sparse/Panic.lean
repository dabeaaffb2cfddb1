import Verif.Sparse.History
/-!
# SparseTree: histories in which `Data::default()` may panic

`get_or_insert` calls the caller's `Data::default()` in the middle of the insertion
(sparse_tree.rs:447). If it unwinds and the panic is caught, the tree is left in the state at that
point.
-/
namespace Hibit.Sparse
open Hibit

/-- sparse_tree.rs:370-376 `get_or_insert` with a `Data::default()` that panics: the blocks on the
way have been created (sparse_tree.rs:402-437); if the key is present the default is not called and
the value is returned (the result is `some` of the value seen), otherwise the unwinding starts at
`(value_fn)()` in sparse_tree.rs:447, before `values`, `keys`, `last_level_block_indices` and the
last block are changed (the result is `none`). -/
def getOrInsertPanic {α : Type} (N D : Nat) (t : ST α) (index : Nat) : R (ST α × Option α) := do
  let index ← indexFrom N D index
  let li ← levelIndices N D index
  let inner ← unwrapU li.getLast?
  let ((lv, bi), _) ← constLoop 0 (D - 1) (insertStep N li) (t.levels, 0)
  let L ← getP lv (D - 1)
  let b ← getU L.blocks bi
  let di ← b.getOrZero inner
  let t := { t with levels := lv }
  if di = 0 then return (t, none)
  else
    let old ← getU t.values di
    let old ← unwrapU old
    return (t, some old)

/-- sparse_tree.rs:70-95 `SparseTree::default()` with `Data::default()` as the parameter `init`, which
may panic; `required` is `R::REQUIRED`. `values` is a `Vec` of length 1 from the start
(sparse_tree.rs:78-79); `init_default` (req_default.rs:18-31) writes its element only if `required`. If `init` unwinds,
the local `values` is dropped with its uninitialised element (`dropSlice` is `Vec`'s drop; the
element type is assumed to have drop glue). -/
def defaultWith (α : Type) (N D : Nat) (required : Bool) (init : R α) : R (ST α) :=
  if required then
    match init with
    | .ok d => .ok (Sparse.default α N D (some d))
    | .error e => do
      let _ ← dropSlice ([none] : List (Option α))
      .error e
  else .ok (Sparse.default α N D none)

/-- A step of a history with caught panics. -/
inductive PEvent (α : Type) where
  | op (o : Op α)
  /-- `get_or_insert(k)` with a `Data::default()` that panics; the panic is caught -/
  | defaultPanics (k : Nat)

/-- One step; the output is the value observed by the caller and the values dropped by the call. -/
def pstep {α : Type} (N D : Nat) (t : ST α) : PEvent α → R (ST α × Option α × List α)
  | .op o => step N D t o
  | .defaultPanics k => do
    let (t, v) ← getOrInsertPanic N D t k
    return (t, v, [])

/-- A history with caught panics, from left to right. -/
def prun {α : Type} (N D : Nat) (t : ST α) : List (PEvent α) → R (ST α × List (Option α × List α))
  | [] => .ok (t, [])
  | e :: es => do
    let (t, o) ← pstep N D t e
    let (t, os) ← prun N D t es
    return (t, o :: os)

/-! ## Specification -/

/-- What a step does to a finite map: a panicking `get_or_insert` changes nothing; if the key is
present the caller sees its value (there is no panic), otherwise nothing. -/
def PEvent.spec {α : Type} (dflt : Option α) (M : Nat → Option α) :
    PEvent α → (Nat → Option α) × Option α × List α
  | .op o => o.spec dflt M
  | .defaultPanics k => (M, M k, [])

/-- A history with caught panics on a finite map. -/
def pspecRun {α : Type} (dflt : Option α) (M : Nat → Option α) : List (PEvent α) →
    (Nat → Option α) × List (Option α × List α)
  | [] => (M, [])
  | e :: es =>
    let (M', o) := e.spec dflt M
    let (M'', os) := pspecRun dflt M' es
    (M'', o :: os)

/-- The keys are in range, and `get_or_default` occurs only on trees having it. -/
def PEvent.Ok {α : Type} (n : Nat) (dflt : Option α) : PEvent α → Prop
  | .op o => o.Ok n dflt
  | .defaultPanics k => k < n

/-- The key, if any, whose default panicked. -/
def PEvent.left {α : Type} : PEvent α → List Nat
  | .op _ => []
  | .defaultPanics k => [k]

/-- In every state of the history the keys present, together with the keys whose default has
panicked so far, have property `P`. -/
def PAlways {α : Type} (dflt : Option α) (P : (Nat → Option Unit) → Prop) (Ph : List Nat)
    (M : Nat → Option α) : List (PEvent α) → Prop
  | [] => P (occ Ph M)
  | e :: es => P (occ Ph M) ∧ PAlways dflt P (e.left ++ Ph) (e.spec dflt M).1 es

/-! ## Refinement -/

variable {α : Type} {N D : Nat} {cap : Nat → Nat} {dflt : Option α} {Ph : List Nat} {t : ST α}
  {M : Nat → Option α} {B : List Nat → Nat}

theorem OnPath.cons {k : Nat} {p : List Nat} (h : OnPath N D Ph p) : OnPath N D (k :: Ph) p := by
  obtain ⟨j, h1, h2⟩ := h
  exact ⟨j, by simp [h1], h2⟩

/-- A panicking default leaves the content unchanged (but possibly empty blocks behind). -/
theorem SRep.getOrInsertPanic_spec (hc : Cfg N D) (hcap : CapOk D cap)
    (R : SRep N D cap dflt Ph t M) {k : Nat} (hk : k < keyRange N D)
    (hfit : Fits (width N) D cap (occ (k :: Ph) M)) :
    ∃ t', getOrInsertPanic N D t k = .ok (t', M k) ∧ SRep N D cap dflt (k :: Ph) t' M := by
  obtain ⟨B, S⟩ := R
  have hkr := hk
  replace hk : k < width N ^ D := Nat.lt_of_lt_of_le hk (keyRange_le N D)
  have hPv := validPath_path hk
  have hPl := path_length (width N) D k
  have hlev : levelIndices N D k = .ok (path (width N) D k) := levelIndices_eq hc.valid k
  have hpos := hc.pos
  have hle := hc.le
  have hroom : ∀ n, n + 1 < D → B ((path (width N) D k).take (n + 1)) = 0 →
      liveCount (width N) (n + 1) B + 2 ≤ cap (n + 1) := by
    intro n hn h0
    have g := S.liveCount_room (n := n + 1) (by omega) (by omega) hk h0
      (M' := occ (k :: Ph) M) (by
        intro j _ hj
        rw [occ_isSome] at hj ⊢
        rcases hj with (h | h) | h
        · exact .inl h
        · exact .inr (by simp [h])
        · exact .inr (by simp [h]))
    have := hfit (n + 1) (by omega) (by omega)
    omega
  obtain ⟨lv', B', e1, H', hlive, hs, htake, hkeep⟩ := insertWalk_spec hc.nz S.lv hPv hPl hc.pos
    (by omega) hroom (fun n hn => hcap.fits n (by omega))
  have hent := S.entry hk
  have honP : ∀ n, n < D → OnPath N D (k :: Ph) ((path (width N) D k).take n) := by
    intro n hn
    refine ⟨k, by simp, hk, ?_⟩
    rw [List.length_take, hPl, Nat.min_eq_left (by omega)]
  have hDval : ∀ q, q.length = D → B' q = B q := by
    intro q hq
    apply hs
    intro n h1 h2 e
    rw [e] at hq
    simp at hq; omega
  have S1 : SS N D cap dflt (k :: Ph) { t with levels := lv' } M B' := by
    have V := S.data
    refine ⟨H', ?_, ⟨V.lenK, V.lenL, V.bound, V.zero, ?_, ?_, ?_, V.init⟩, ?_⟩
    · intro q hq hql hlv
      by_cases hpre : ∃ n, 1 ≤ n ∧ n < D ∧ q = (path (width N) D k).take n
      · obtain ⟨n, h1, h2, rfl⟩ := hpre
        exact .inr (honP n h2)
      · have hBq : B' q = B q := hs q (fun n h1 h2 e => hpre ⟨n, h1, h2, e⟩)
        rw [hBq] at hlv
        rcases S.exact q hq hql hlv with ⟨j, hj⟩ | hph
        · exact .inl ⟨j, by rw [hkeep _ hj]; exact hj⟩
        · exact .inr hph.cons
    · intro P hP hne
      rw [hDval P hP] at hne ⊢
      exact V.keyOf P hP hne
    · intro p i hp hne
      have hpD : (p ++ [i]).length = D := by simpa using hp
      rw [hDval _ hpD] at hne ⊢
      rw [V.lastOf p i hp hne]
      rcases S.lv.parent_live hne with h | h
      · rw [h, S.lv.root, H'.root]
      · rw [hkeep p h]
    · intro d h1 h2
      obtain ⟨P, hP, hPd⟩ := V.surj d h1 h2
      exact ⟨P, hP, by rw [hDval P hP, hPd]⟩
    · intro j
      rw [S.den j]
      by_cases hj : j < width N ^ D
      · rw [if_pos hj, if_pos hj, hDval _ (path_length _ _ _)]
      · rw [if_neg hj, if_neg hj]
  refine ⟨{ t with levels := lv' }, ?_, B', S1⟩
  generalize hPe : path (width N) D k = P at *
  rcases eq_nil_or_append P with rfl | ⟨p, i, rfl⟩
  · simp at hPl; omega
  have hpl : p.length + 1 = D := by simpa using hPl
  have htk : (p ++ [i]).take (D - 1) = p := by
    rw [List.take_append_of_le_length (by omega), List.take_of_length_le (by omega)]
  rw [htk] at e1 hlive
  obtain ⟨hpv, hi⟩ := ValidPath.of_append hPv
  have hlast : (p ++ [i]).getLast? = some i := by simp
  obtain ⟨L, hL, hk1⟩ := H'.get (n := p.length) (by omega)
  have hD1 : D - 1 = p.length := by omega
  rw [hD1] at e1
  obtain ⟨b, hb, hbI⟩ := H'.block hpv hL
  have hcg := hbI.get hi (by simp)
  rw [hDval _ hPl] at hcg
  unfold getOrInsertPanic
  rw [indexFrom_eq, if_pos hkr]
  simp only [hlev, bind_ok, hlast, unwrapU, e1, hD1, getP_some hL, getU_some hb, hcg]
  rcases hent with ⟨hM, hz⟩ | ⟨ov, hM, hnz, hval⟩
  · rw [if_pos hz, hM]; rfl
  · rw [if_neg hnz, hM]
    simp only [getU_some hval, bind_ok, pure_eq_ok]

theorem PAlways.head {P : (Nat → Option Unit) → Prop} {es : List (PEvent α)}
    (h : PAlways dflt P Ph M es) : P (occ Ph M) := by
  cases es with
  | nil => exact h
  | cons _ _ => exact h.1

theorem pstep_spec (hc : Cfg N D) (hcap : CapOk D cap) (R : SRep N D cap dflt Ph t M)
    {e : PEvent α} (hok : e.Ok (keyRange N D) dflt)
    (hfit : Fits (width N) D cap (occ (e.left ++ Ph) (e.spec dflt M).1)) :
    ∃ t', pstep N D t e = .ok (t', (e.spec dflt M).2) ∧
      SRep N D cap dflt (e.left ++ Ph) t' (e.spec dflt M).1 := by
  cases e with
  | op o => exact step_spec hc hcap R hok hfit
  | defaultPanics k =>
    obtain ⟨t', e1, R'⟩ := R.getOrInsertPanic_spec hc hcap hok hfit
    refine ⟨t', ?_, R'⟩
    simp only [pstep, e1, bind_ok, pure_eq_ok]
    rfl

/-- The keys whose default panicked, latest first. -/
def leftKeys {α : Type} : List Nat → List (PEvent α) → List Nat
  | Ph, [] => Ph
  | Ph, e :: es => leftKeys (e.left ++ Ph) es

/-- **Refinement of histories with caught panics.** -/
theorem prun_spec (hc : Cfg N D) (hcap : CapOk D cap) : ∀ (es : List (PEvent α)) (Ph : List Nat)
    (t : ST α) (M : Nat → Option α), SRep N D cap dflt Ph t M →
    (∀ e ∈ es, e.Ok (keyRange N D) dflt) → PAlways dflt (Fits (width N) D cap) Ph M es →
    ∃ t', prun N D t es = .ok (t', (pspecRun dflt M es).2) ∧
      SRep N D cap dflt (leftKeys Ph es) t' (pspecRun dflt M es).1 := by
  intro es
  induction es with
  | nil => intro Ph t M R _ _; exact ⟨t, rfl, R⟩
  | cons e es ih =>
    intro Ph t M R hok hb
    obtain ⟨t1, e1, R1⟩ := pstep_spec hc hcap R (hok e (by simp)) hb.2.head
    obtain ⟨t2, e2, R2⟩ := ih _ t1 _ R1 (fun o ho => hok o (by simp [ho])) hb.2
    refine ⟨t2, ?_, R2⟩
    simp only [prun, e1, bind_ok, e2, pure_eq_ok]
    rfl

end Hibit.Sparse
