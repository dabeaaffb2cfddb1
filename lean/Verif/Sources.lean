import Verif.Ops.LawfulMI
import Verif.Ops.LawfulMU
import Verif.TreeOf
/-!
# The source iterator of `multi_union` / `multi_intersection`

`Ops/Model` gives these operations a list of trees. The code keeps an iterator and clones it whenever it needs the
trees; a safe `Clone` need not yield the same trees every time. Here the trees of the `k`-th clone are `src k`.
-/
namespace Hibit

/-- A multi-operation over the clones of its source iterator. Clones are made by `Cursor::new` (_multi_union.rs:157,
_multi_intersection.rs:348: clone 0), by every select of `multi_intersection` (_multi_intersection.rs:372, 409) and by its
`data_unchecked` (_multi_intersection.rs:447); the functions of `J` that do not use their tree argument ignore the clone. The
cursor counts the clones. `data`/`dataU` stand for reads with the clone number 0 (_multi_union.rs:42, 62,
_multi_intersection.rs:97, 149); other clones: use `J` itself. -/
def fromClones {S C δ : Type} (J : Impl (List S) C δ) : Impl (Nat → List S) (Nat × C) δ where
  N := J.N
  D := J.D
  exact := J.exact
  data src index li := J.data (src 0) index li
  dataU src index li := J.dataU (src 0) index li
  new src := do
    let c ← J.new (src 0)
    return (1, c)
  select kc src n i := do
    let r ← J.select kc.2 (src kc.1) n i
    return (r.1, (kc.1 + 1, r.2))
  selectU kc src n i := do
    let r ← J.selectU kc.2 (src kc.1) n i
    return (r.1, (kc.1 + 1, r.2))
  curData kc src i := J.curData kc.2 (src kc.1) i
  curDataU kc src i := J.curDataU kc.2 (src kc.1) i

/-- The cursor relation, with a further invariant of the cursor. -/
def clonesRel {C : Type} (K : CursorRel C) (Q : C → Prop) : CursorRel (Nat × C) where
  inv kc := K.inv kc.2 ∧ Q kc.2
  pos kc p := K.pos kc.2 p ∧ Q kc.2
  posC kc p := K.posC kc.2 p ∧ Q kc.2

section
variable {S C δ : Type} {J : Impl (List S) C δ} {src : Nat → List S} {T : TreeSpec δ} {K : CursorRel C} {Q : C → Prop}

/-- If cursors with `Q` do not notice which clone they are given, the tree obeys the contract. -/
theorem fromClones_lawful (L : Lawful J (src 0) T K)
    (hnew : ∀ c, J.new (src 0) = .ok c → Q c)
    (hs : ∀ c k n i, Q c → J.select c (src k) n i = J.select c (src 0) n i)
    (hsU : ∀ c k n i, Q c → J.selectU c (src k) n i = J.selectU c (src 0) n i)
    (hd : ∀ c k i, Q c → J.curDataU c (src k) i = J.curDataU c (src 0) i)
    (qs : ∀ c n i m c', Q c → J.select c (src 0) n i = .ok (m, c') → Q c')
    (qsU : ∀ c n i m c', Q c → J.selectU c (src 0) n i = .ok (m, c') → Q c') :
    Lawful (fromClones J) src T (clonesRel K Q) where
  cfg := L.cfg
  wf := L.wf
  data_eq := L.data_eq
  dataU_eq := L.dataU_eq
  new_ok := by
    obtain ⟨c, e, h⟩ := L.new_ok
    exact ⟨(1, c), by simp [fromClones, e], h, hnew c e⟩
  pos_inv c p h := ⟨L.pos_inv c.2 p h.1, h.2⟩
  posC_pos c p h := ⟨L.posC_pos c.2 p h.1, h.2⟩
  pos_take c p k h := ⟨L.pos_take c.2 p k h.1, h.2⟩
  select_root c i h hi := by
    obtain ⟨m, c', e, h1, h2, h3⟩ := L.select_root c.2 i h.1 hi
    exact ⟨m, (c.1 + 1, c'), by simp [fromClones, hs _ _ _ _ h.2, e], h1, h2, h3, qs _ _ _ _ _ h.2 e⟩
  selectU_root c i h hi := by
    obtain ⟨m, c', e, h1, h2, h3⟩ := L.selectU_root c.2 i h.1 hi
    exact ⟨m, (c.1 + 1, c'), by simp [fromClones, hsU _ _ _ _ h.2, e], h1, h2, h3, qsU _ _ _ _ _ h.2 e⟩
  select_node c p i h hp hi hl := by
    obtain ⟨m, c', e, h1, h2, h3⟩ := L.select_node c.2 p i h.1 hp hi hl
    exact ⟨m, (c.1 + 1, c'), by simp [fromClones, hs _ _ _ _ h.2, e], h1, h2, h3, qs _ _ _ _ _ h.2 e⟩
  selectU_node c p i h hp hi hl hb := by
    obtain ⟨m, c', e, h1, h2, h3⟩ := L.selectU_node c.2 p i h.1 hp hi hl hb
    exact ⟨m, (c.1 + 1, c'), by simp [fromClones, hsU _ _ _ _ h.2, e], h1, h2, h3, qsU _ _ _ _ _ h.2 e⟩
  curDataU_eq c p i d h hp hi hl hc := by
    show J.curDataU c.2 (src c.1) i = _
    rw [hd _ _ _ h.2]
    exact L.curDataU_eq c.2 p i d h.1 hp hi hl hc

end

/-! ## `multi_union` keeps the trees of its first clone -/

theorem unionClones_isTree {S C δ : Type} {I : Impl S C δ} {src : Nat → List S} {M : Nat → Option (List δ)}
    (h : IsTree (multiUnionImpl I) (src 0) M) : IsTree (fromClones (multiUnionImpl I)) src M := by
  obtain ⟨T, K, L, e⟩ := h
  refine ⟨T, clonesRel K (fun _ => True), ?_, e⟩
  exact fromClones_lawful L (fun _ _ => trivial) (fun _ _ _ _ _ => rfl) (fun _ _ _ _ _ => rfl) (fun _ _ _ _ => rfl)
    (fun _ _ _ _ _ _ _ => trivial) (fun _ _ _ _ _ _ _ => trivial)

/-! ## `multi_intersection` asks its clones again -/

section
variable {S C δ : Type} {I : Impl S C δ}

theorem miSelectRest_extra {sel : C → S → R (Mask × C)} (ex : List S) : ∀ (cs : List C) (ss : List S) (acc : Mask),
    cs.length = ss.length → miSelectRest sel cs (ss ++ ex) acc = miSelectRest sel cs ss acc
  | [], _, _, _ => rfl
  | c :: cs, [], _, h => by simp at h
  | c :: cs, s :: ss, acc, h => by
    simp only [miSelectRest, List.cons_append, List.head?_cons, List.tail_cons, unwrapU, bind_ok]
    cases sel c s with
    | error e => rfl
    | ok r =>
      simp only [bind_ok]
      rw [miSelectRest_extra ex cs ss _ (by simpa using h)]

theorem miSelectAll_extra {sel : C → S → R (Mask × C)} (ex : List S) (cs : List C) (ss : List S)
    (h : cs.length = ss.length) : miSelectAll sel cs (ss ++ ex) = miSelectAll sel cs ss := by
  cases cs with
  | nil => rfl
  | cons c cs =>
    cases ss with
    | nil => simp at h
    | cons s ss =>
      simp only [miSelectAll, List.cons_append, List.head?_cons, List.tail_cons, unwrapU, bind_ok]
      cases sel c s with
      | error e => rfl
      | ok r =>
        simp only [bind_ok]
        rw [miSelectRest_extra ex cs ss _ (by simpa using h)]

theorem miCursorData_extra (ex : List S) (i : Nat) : ∀ (cs : List C) (ss : List S),
    cs.length = ss.length → miCursorData I i cs (ss ++ ex) = miCursorData I i cs ss
  | [], _, _ => by simp [miCursorData]
  | c :: cs, [], h => by simp at h
  | c :: cs, s :: ss, h => by
    simp only [miCursorData, List.cons_append, List.head?_cons, List.tail_cons, unwrapU, bind_ok]
    cases I.curDataU c s i with
    | error e => rfl
    | ok r =>
      simp only [bind_ok]
      rw [miCursorData_extra ex i cs ss (by simpa using h)]

theorem miSelectRest_length {sel : C → S → R (Mask × C)} : ∀ (cs : List C) (ss : List S) (acc : Mask) r,
    miSelectRest sel cs ss acc = .ok r → r.2.length = cs.length
  | [], _, _, r, h => by cases h; rfl
  | c :: cs, ss, acc, r, h => by
    unfold miSelectRest at h
    obtain ⟨s, _, h⟩ := bind_inv h
    obtain ⟨q, _, h⟩ := bind_inv h
    obtain ⟨q2, e2, h⟩ := bind_inv h
    cases h
    simp [miSelectRest_length cs _ _ _ e2]

theorem miSelectAll_length {sel : C → S → R (Mask × C)} {cs : List C} {ss : List S} {acc : Mask} {cs' : List C}
    (h : miSelectAll sel cs ss = .ok (some (acc, cs'))) : cs'.length = cs.length := by
  cases cs with
  | nil => cases h
  | cons c cs =>
    unfold miSelectAll at h
    obtain ⟨s, _, h⟩ := bind_inv h
    obtain ⟨q, _, h⟩ := bind_inv h
    obtain ⟨q2, e2, h⟩ := bind_inv h
    cases h
    simp [miSelectRest_length cs _ _ _ e2]

theorem miCursors_length {new : S → R C} : ∀ (ss : List S) (acc cs : List C),
    miCursors new ss acc = .ok cs → cs.length = acc.length + ss.length
  | [], acc, cs, h => by cases h; rfl
  | s :: ss, acc, cs, h => by
    unfold miCursors at h
    obtain ⟨c, _, h⟩ := bind_inv h
    obtain ⟨acc', e, h⟩ := bind_inv h
    have := miCursors_length ss acc' cs h
    unfold avPush at e
    split at e
    · cases e
      simp at this ⊢
      omega
    · cases e

theorem miCursors_get {new : S → R C} : ∀ (ss : List S) (acc cs : List C), miCursors new ss acc = .ok cs →
    (∀ (j : Nat) c, acc[j]? = some c → cs[j]? = some c) ∧
    ∀ (k : Nat) s c, ss[k]? = some s → cs[acc.length + k]? = some c → new s = .ok c
  | [], acc, cs, h => by
    cases h
    exact ⟨fun _ _ h => h, fun k s c hs => by simp at hs⟩
  | s :: ss, acc, cs, h => by
    unfold miCursors at h
    obtain ⟨c, en, h⟩ := bind_inv h
    obtain ⟨acc', e, h⟩ := bind_inv h
    have ih := miCursors_get ss acc' cs h
    unfold avPush at e
    split at e
    · cases e
      refine ⟨fun j c' hj => ih.1 j c' ?_, fun k s' c' hs hc => ?_⟩
      · rw [List.getElem?_append_left (List.getElem?_eq_some_iff.1 hj).1]
        exact hj
      · cases k with
        | zero =>
          have := ih.1 acc.length c (by simp)
          simp only [Nat.add_zero] at hc
          rw [this] at hc
          cases hc
          simp only [List.getElem?_cons_zero, Option.some.injEq] at hs
          rw [← hs, en]
        | succ k =>
          refine ih.2 k s' c' (by simpa using hs) ?_
          rw [← hc]
          congr 1
          simp
          omega
    · cases e

/-- Clones that begin with the trees of the first one are not noticed. -/
theorem interClones_isTree {src : Nat → List S} {M : Nat → Option (List δ)}
    (hp : ∀ k, src 0 <+: src k) (h : IsTree (multiInterImpl I) (src 0) M) :
    IsTree (fromClones (multiInterImpl I)) src M := by
  obtain ⟨T, K, L, e⟩ := h
  have hlen : ∀ (c : MICursor C) sel (r : Mask × List C), c.cursors.length = (src 0).length →
      miSelectAll sel c.cursors (src 0) = .ok (some r) → r.2.length = (src 0).length := by
    intro c sel r hc hr
    rw [← hc]
    exact miSelectAll_length hr
  refine ⟨T, clonesRel K (fun c => c.cursors.length = (src 0).length), ?_, e⟩
  refine fromClones_lawful L ?_ ?_ ?_ ?_ ?_ ?_
  · intro c hc
    simp only [multiInterImpl] at hc
    obtain ⟨cs, e1, hc⟩ := bind_inv hc
    cases hc
    have := miCursors_length _ _ _ e1
    simpa using this
  · intro c k n i hc
    obtain ⟨ex, ek⟩ := hp k
    simp only [multiInterImpl, miSelect]
    rw [← ek, miSelectAll_extra ex _ _ hc]
  · intro c k n i hc
    obtain ⟨ex, ek⟩ := hp k
    simp only [multiInterImpl, miSelectU]
    rw [← ek, miSelectAll_extra ex _ _ hc]
  · intro c k i hc
    obtain ⟨ex, ek⟩ := hp k
    simp only [multiInterImpl]
    rw [← ek, miCursorData_extra ex i _ _ hc]
  · intro c n i m c' hc h
    simp only [multiInterImpl, miSelect] at h
    split at h
    · cases h; exact hc
    · obtain ⟨r, e1, h⟩ := bind_inv h
      cases r with
      | none => cases h; exact hc
      | some r => cases h; exact hlen c _ r hc e1
  · intro c n i m c' hc h
    simp only [multiInterImpl, miSelectU] at h
    obtain ⟨r, e1, h⟩ := bind_inv h
    cases r with
    | none => cases h; exact hc
    | some r => cases h; exact hlen c _ r hc e1

/-- Selecting with too few trees is undefined behaviour (`unwrap_unchecked` of `None`). -/
theorem miSelectRest_short {sel : C → S → R (Mask × C)} {cs : List C} {ss : List S} {acc : Mask}
    (hok : ∀ (k : Nat) c s, cs[k]? = some c → ss[k]? = some s → ∀ e, sel c s = .error e → e = .ub) (h : ss.length < cs.length) :
    miSelectRest sel cs ss acc = .error .ub := by
  induction cs generalizing ss acc with
  | nil => simp at h
  | cons c cs ih =>
    cases ss with
    | nil => simp [miSelectRest, unwrapU]
    | cons s ss =>
      simp only [miSelectRest, List.head?_cons, List.tail_cons, unwrapU, bind_ok]
      cases e : sel c s with
      | error x => rw [hok 0 c s (by simp) (by simp) x e]; rfl
      | ok r =>
        simp only [bind_ok]
        rw [ih (fun k c s hc hs => hok (k + 1) c s (by simpa using hc) (by simpa using hs)) (by simpa using h)]
        rfl

theorem miSelectAll_short {sel : C → S → R (Mask × C)} {cs : List C} {ss : List S}
    (hok : ∀ (k : Nat) c s, cs[k]? = some c → ss[k]? = some s → ∀ e, sel c s = .error e → e = .ub) (h : ss.length < cs.length) :
    miSelectAll sel cs ss = .error .ub := by
  cases cs with
  | nil => simp at h
  | cons c cs =>
    cases ss with
    | nil => simp [miSelectAll, unwrapU]
    | cons s ss =>
      simp only [miSelectAll, List.head?_cons, List.tail_cons, unwrapU, bind_ok]
      cases e : sel c s with
      | error x => rw [hok 0 c s (by simp) (by simp) x e]; rfl
      | ok r =>
        simp only [bind_ok]
        rw [miSelectRest_short (fun k c s hc hs => hok (k + 1) c s (by simpa using hc) (by simpa using hs)) (by simpa using h)]
        rfl

/-- `Cursor::new` with the first clone, and the first select, checked or not, with a clone that has lost trees. -/
theorem interClones_short_select {src : Nat → List S} {m : Nat} (hcap : (src 0).length ≤ 32)
    (hm : m < (src 0).length) (h1 : src 1 = (src 0).take m) (ht : ∀ s ∈ src 0, ∃ M, IsTree I s M) :
    ∃ c, (fromClones (multiInterImpl I)).new src = .ok c ∧
      (fromClones (multiInterImpl I)).select c src 0 0 = .error .ub ∧
      (fromClones (multiInterImpl I)).selectU c src 0 0 = .error .ub := by
  have hnew : ∃ cs, miCursors I.new (src 0) [] = .ok cs := by
    have key : ∀ (ss : List S) (acc : List C), (∀ s ∈ ss, ∃ M, IsTree I s M) → acc.length + ss.length ≤ 32 →
        ∃ cs, miCursors I.new ss acc = .ok cs := by
      intro ss
      induction ss with
      | nil => intro acc _ _; exact ⟨acc, rfl⟩
      | cons s ss ih =>
        intro acc h hl
        obtain ⟨M, T, K, L, _⟩ := h s (by simp)
        obtain ⟨c, e, _⟩ := L.new_ok
        simp only [List.length_cons] at hl
        obtain ⟨cs, ec⟩ := ih (acc ++ [c]) (fun s hs => h s (by simp [hs])) (by simp; omega)
        refine ⟨cs, ?_⟩
        unfold miCursors
        rw [e]
        simp only [bind_ok, avPush]
        rw [if_pos (by unfold multiCap; omega)]
        exact ec
    exact key (src 0) [] ht (by simpa using hcap)
  obtain ⟨cs, ecs⟩ := hnew
  have hlen := miCursors_length _ _ _ ecs
  have hget := (miCursors_get _ _ _ ecs).2
  simp only [List.length_nil, Nat.zero_add] at hlen hget
  have hsel : ∀ sel : C → S → R (Mask × C), (∀ s M, IsTree I s M → ∀ c, I.new s = .ok c → ∃ r, sel c s = .ok r) →
      miSelectAll sel cs (src 1) = .error .ub := by
    intro sel hsel
    apply miSelectAll_short
    · intro k c s hc hs e he
      rw [h1, List.getElem?_take] at hs
      split at hs
      · obtain ⟨M, hM⟩ := ht s (List.mem_iff_getElem?.2 ⟨k, hs⟩)
        obtain ⟨r, er⟩ := hsel s M hM c (hget k s c hs hc)
        rw [er] at he
        cases he
      · cases hs
    · rw [h1, List.length_take, hlen]
      omega
  have hsU := hsel (fun c s => I.selectU c s 0 0) (fun s M ⟨T, K, L, _⟩ c hc => by
    obtain ⟨c2, e2, hi⟩ := L.new_ok
    rw [hc] at e2
    cases e2
    obtain ⟨m', c', e3, _⟩ := L.selectU_root c 0 hi rfl
    exact ⟨_, e3⟩)
  have hs := hsel (fun c s => I.select c s 0 0) (fun s M ⟨T, K, L, _⟩ c hc => by
    obtain ⟨c2, e2, hi⟩ := L.new_ok
    rw [hc] at e2
    cases e2
    obtain ⟨m', c', e3, _⟩ := L.select_root c 0 hi rfl
    exact ⟨_, e3⟩)
  refine ⟨_, by simp only [fromClones, multiInterImpl, ecs, bind_ok, pure_eq_ok]; rfl, ?_, ?_⟩
  · simp only [fromClones, multiInterImpl, miSelect]
    rw [if_neg (by unfold multiCap usizeMod; omega), hs]
    rfl
  · simp only [fromClones, multiInterImpl, miSelectU, hsU]
    rfl

/-- The iterator cannot be made. -/
theorem interClones_short {src : Nat → List S} {m : Nat} (hcap : (src 0).length ≤ 32)
    (hm : m < (src 0).length) (h1 : src 1 = (src 0).take m) (ht : ∀ s ∈ src 0, ∃ M, IsTree I s M) :
    (fromClones (multiInterImpl I)).iterNew src = .error .ub := by
  obtain ⟨c, e, _, eU⟩ := interClones_short_select hcap hm h1 ht
  simp only [Impl.iterNew, e, bind_ok, eU]
  rfl

end
end Hibit
