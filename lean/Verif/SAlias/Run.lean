import Verif.SAlias.Change
/-!
# Histories and shared uses keep their borrows
-/
namespace Hibit.SAlias
open Hibit Hibit.Sparse
open Hibit.Alias (Perm Item Acc Tag)
open Hibit.Typed (GLevel BPtr GT Rel TR)

variable {α : Type}

theorem Rel.weaken {A B : Type} {Q Q' : A → B → Prop} {x : R A} {y : R B} (h : Rel Q x y)
    (hq : ∀ a b, Q a b → Q' a b) : Rel Q' x y := by
  cases h with
  | ok q => exact .ok (hq _ _ q)
  | err => exact .err

/-- A lookup by the owner. -/
theorem get_none (N D : Nat) (g : GT α) (z : St) (k : Nat) :
    Rel (fun a r => r.1 = a) ((Typed.impl α N D).get g k) (get N D g none k z) := by
  obtain ⟨a, z1, e1, h1, -⟩ := own_none g.levels.length .shared z
  unfold get Impl.get
  refine Rel.same fun index _ => Rel.same fun li _ => Rel.skip e1 ?_
  have := treeData_rel h1 li
  revert this
  show Rel _ (Typed.treeData g li) (treeData g (some a) li z1) →
    Rel _ (Typed.treeData g li) (treeData g (some a) li z1 >>= _)
  generalize Typed.treeData g li = x
  generalize treeData g (some a) li z1 = y
  intro h
  cases h with
  | @ok _ r q =>
    obtain ⟨r1, r2⟩ := r
    exact Rel.skip rfl (Rel.skip (leave_own q.2.1) (.ok q.1))
  | err => exact .err

theorem getOrDefault_none (N D : Nat) (g : GT α) (z : St) (k : Nat) :
    Rel (fun a r => r.1 = a) (Typed.getOrDefault N D g k) (getOrDefault N D g none k z) := by
  obtain ⟨a, z1, e1, h1, -⟩ := own_none g.levels.length .shared z
  unfold getOrDefault Typed.getOrDefault
  refine Rel.same fun index _ => Rel.same fun li _ => Rel.skip e1 ?_
  refine Rel.bind (fetchIndex_rel h1 li) fun di r ⟨e, o, _⟩ => ?_
  obtain ⟨r1, r2⟩ := r
  simp only at e o
  subst e
  obtain ⟨z3, e3, o3, -, -⟩ := field_own (Perm.le_shared ⟨.shared, a⟩) o (mem_values _)
  show Rel _ (getU g.values r1 >>= fun v => unwrapU v) (getU g.values r1 >>= fun v => unwrapU v >>= fun v => _)
  refine Rel.same fun v _ => ?_
  cases unwrapU v with
  | error e => exact .err
  | ok v => exact Rel.skip rfl (Rel.skip e3 (Rel.skip (leave_own o3) (.ok rfl)))

theorem insert_rel (N : Nat) {D : Nat} (h1 : 1 ≤ D) (h8 : D ≤ 8) {g : GT α} (hl : g.levels.length = D) (z : St) (k : Nat)
    (v : α) : Rel (fun a r => r.1 = a) (Typed.insert N D g k v) (insert N D g k v z) := by
  obtain ⟨n, z1, e1, o1⟩ := selfMut_ok g z
  unfold insert Typed.insert
  refine Rel.skip e1 (Rel.same fun index _ => ?_)
  rw [hl] at o1
  have := getOrInsertImpl_rel N h1 h8 hl (i := ⟨.uniq, n⟩) rfl o1 index true v
  revert this
  show Rel _ (Typed.getOrInsertImpl N D g index true v) (getOrInsertImpl N D g (some n) index true v z1) →
    Rel _ (Typed.getOrInsertImpl N D g index true v) (getOrInsertImpl N D g (some n) index true v z1 >>= _)
  generalize Typed.getOrInsertImpl N D g index true v = x
  generalize getOrInsertImpl N D g (some n) index true v z1 = y
  intro h
  cases h with
  | @ok _ r q =>
    obtain ⟨r1, r2⟩ := r
    exact Rel.skip rfl (Rel.skip (leave_own (hl.symm ▸ q.2)) (.ok q.1))
  | err => exact .err

theorem getOrInsert_rel (N : Nat) {D : Nat} (h1 : 1 ≤ D) (h8 : D ≤ 8) {g : GT α} (hl : g.levels.length = D) (z : St)
    (k : Nat) (v : α) : Rel (fun a r => r.1 = a) (Typed.getOrInsert N D g k v) (getOrInsert N D g k v z) := by
  obtain ⟨n, z1, e1, o1⟩ := selfMut_ok g z
  unfold getOrInsert Typed.getOrInsert
  refine Rel.skip e1 (Rel.same fun index _ => ?_)
  rw [hl] at o1
  have := getOrInsertImpl_rel N h1 h8 hl (i := ⟨.uniq, n⟩) rfl o1 index false v
  revert this
  show Rel _ (Typed.getOrInsertImpl N D g index false v) (getOrInsertImpl N D g (some n) index false v z1) →
    Rel _ (Typed.getOrInsertImpl N D g index false v) (getOrInsertImpl N D g (some n) index false v z1 >>= _)
  generalize Typed.getOrInsertImpl N D g index false v = x
  generalize getOrInsertImpl N D g (some n) index false v z1 = y
  intro h
  cases h with
  | @ok _ r q =>
    obtain ⟨r1, r2⟩ := r
    exact Rel.skip rfl (Rel.skip (leave_own (hl.symm ▸ q.2)) (.ok q.1))
  | err => exact .err

/-- The drop of a tree. -/
theorem dropImpl_rel {D : Nat} {t : ST α} {g : GT α} (T : TR D t g) (required : Bool) (z : St) :
    Rel (fun a r => r.1 = a) (Sparse.dropImpl required t) (dropImpl required g z) := by
  obtain ⟨n, z1, e1, o1⟩ := selfMut_ok g z
  obtain ⟨m, z2, e2, o2, -, -⟩ := own_retag (i := ⟨.uniq, n⟩) (Perm.le_self .uniq n) o1
  obtain ⟨z3, e3, o3, -, -⟩ := field_own (Perm.le_self .uniq m) o2 (mem_values _)
  obtain ⟨z4, e4, o4, -, -⟩ := field_own (Perm.le_shared ⟨.uniq, m⟩) o3 (mem_values _)
  obtain ⟨z5, e5, o5, -, -⟩ := field_own (Perm.le_self .uniq m) o4 (mem_values _)
  unfold dropImpl Sparse.dropImpl
  refine Rel.skip e1 (Rel.skip e2 (Rel.skip e3 (Rel.skip e4 ?_)))
  rw [T.values]
  refine Rel.ite (fun _ => ?_) fun _ => .err
  cases dropSlice (t.values.drop (if required = true then 0 else 1)) with
  | error e => exact .err
  | ok vs => exact Rel.skip rfl (Rel.skip e5 (Rel.skip (leave_own o5) (Rel.skip (leave_own o5.tail) (.ok rfl))))

theorem step_rel (N : Nat) {D : Nat} (h1 : 1 ≤ D) (h8 : D ≤ 8) {g : GT α} (hl : g.levels.length = D) (op : Op α) (z : St) :
    Rel (fun a r => r.1 = a) (Typed.step N D g op) (step N D g op z) := by
  cases op with
  | insert k v =>
    refine Rel.bind (insert_rel N h1 h8 hl z k v) fun a r e => ?_
    subst e
    exact .ok rfl
  | getOrInsert k d f =>
    refine Rel.bind (getOrInsert_rel N h1 h8 hl z k d) fun a r e => ?_
    subst e
    exact Rel.same fun w _ => .ok rfl
  | remove k =>
    refine Rel.bind (remove_rel N g hl z k) fun a r e => ?_
    subst e
    exact .ok rfl
  | get k =>
    refine Rel.bind (get_none N D g z k) fun a r e => ?_
    subst e
    exact .ok rfl
  | getMut k f =>
    refine Rel.bind (getMut_rel N D g z k) fun a r e => ?_
    obtain ⟨o, z'⟩ := r
    simp only at e
    subst e
    cases o with
    | none => exact .ok rfl
    | some i => exact Rel.same fun w _ => .ok rfl
  | getOrDefault k =>
    refine Rel.bind (getOrDefault_none N D g z k) fun a r e => ?_
    subst e
    exact .ok rfl
  | mutValues f =>
    refine Rel.bind (mutValues_rel g f z) fun a r e => ?_
    subst e
    exact .ok rfl

/-- A history runs as without the aliasing rules, from any state of the borrows. -/
theorem run_rel (N : Nat) {D : Nat} (h1 : 1 ≤ D) (h8 : D ≤ 8) : ∀ (ops : List (Op α)) {t : ST α} {g : GT α}, TR D t g →
    ∀ z : St, Rel (fun a r => r.1 = a) (Typed.run N D g ops) (run N D g ops z)
  | [], t, g, _, z => .ok rfl
  | op :: ops, t, g, T, z => by
    unfold run Typed.run
    have hs := step_rel N h1 h8 T.levels.len op z
    have ht := Typed.step_rel h1 h8 N T op
    generalize hx : Typed.step N D g op = x at hs ht
    generalize step N D g op z = y at hs
    cases hs with
    | err => exact .err
    | @ok a b e =>
      obtain ⟨⟨g', o⟩, z'⟩ := b
      simp only at e
      subst e
      generalize Sparse.step N D t op = w at ht
      cases ht with
      | @ok a' b' q =>
        simp only [bind_ok]
        refine Rel.bind (run_rel N h1 h8 ops q.1 z') fun a r e => ?_
        subst e
        exact .ok rfl

/-! ## Cursors -/

/-- The pointers of a cursor without their tags. -/
def erase (c : Cursor) : Typed.Cursor := c.map (Option.map TPtr.ptr)

/-- Every stored pointer is a block pointer of its level whose borrow is still there. -/
structure Live (D : Nat) (z : St) (c : Cursor) : Prop where
  len : c.length = D - 1
  live : ∀ (j : Nat) (p : TPtr), c[j]? = some (some p) → p.ptr.level = j + 1 ∧
    ∃ q, p.tag = some q ∧ (⟨.shared, q⟩ : Item) ∈ z.stk p.place

theorem Live.mono {D : Nat} {z z' : St} {c : Cursor} (h : Live D z c) (m : Mono z z') : Live D z' c :=
  ⟨h.len, fun j p hp => by
    obtain ⟨hl, q, hq, hm⟩ := h.live j p hp
    exact ⟨hl, q, hq, m _ _ rfl hm⟩⟩

theorem Live.valid {D : Nat} {z : St} {c : Cursor} (h : Live D z c) {j : Nat} {p : TPtr} (hp : c[j]? = some (some p))
    (is : List Item) : Valid z .shared (j + 1) is p := by
  obtain ⟨hl, q, hq, hm⟩ := h.live j p hp
  refine ⟨hl, q, hq, ?_⟩
  unfold below
  rw [if_neg (Nat.succ_ne_zero j)]
  exact List.singleton_sublist.2 hm

theorem Live.set {D : Nat} {z : St} {c : Cursor} (h : Live D z c) {j : Nat} {p : TPtr} {is : List Item}
    (hv : Valid z .shared (j + 1) is p) : Live D z (c.set j (some p)) := by
  refine ⟨by simpa using h.len, fun k r hr => ?_⟩
  by_cases e : k = j
  · subst e
    rw [List.getElem?_set] at hr
    split at hr
    · split at hr
      · cases hr
        obtain ⟨hl, q, hq, hc⟩ := hv
        exact ⟨hl, q, hq, List.singleton_sublist.1 ((List.nil_sublist _).cons_cons _ |>.trans hc)⟩
      · cases hr
    · rename_i hne; exact absurd rfl hne
  · rw [List.getElem?_set_ne (fun h => e h.symm)] at hr
    exact h.live k r hr

theorem getU_map {A B : Type} (f : A → B) (l : List A) (j : Nat) :
    Rel (fun b a => b = f a ∧ l[j]? = some a) (getU (l.map f) j) (getU l j) := by
  unfold getU
  rw [List.getElem?_map]
  cases h : l[j]? with
  | none => exact .err
  | some a => exact .ok ⟨rfl, rfl⟩

theorem unwrap_map {A B : Type} (f : A → B) (o : Option A) :
    Rel (fun b a => b = f a ∧ o = some a) (unwrapU (o.map f)) (unwrapU o) := by
  cases o with
  | none => exact .err
  | some a => exact .ok ⟨rfl, rfl⟩

section
variable {g : GT α} {z : St} {i : Item} {ys : List Item} {c : Cursor} {D : Nat}

/-- What every use of a shared tree keeps. -/
structure Kept (g : GT α) (is : List Item) (z z' : St) : Prop where
  own : Own g.levels.length z' is
  mono : Mono z z'

theorem curSelect_rel (ho : Own g.levels.length z (i :: ys)) (hc : Live D z c) (n k : Nat) :
    Rel (fun a r => a = (r.1.1, erase r.1.2) ∧ Live D r.2 r.1.2 ∧ Kept g (i :: ys) z r.2)
      (Typed.curSelect (erase c) g n k) (curSelect c g (some i.tag) n k z) := by
  unfold curSelect Typed.curSelect
  obtain ⟨a, z0, e0, o0, -, m0⟩ := own_retag (pm := .shared) (Perm.le_shared i) ho
  have hc0 := hc.mono (m0 rfl)
  refine Rel.skip e0 ?_
  refine Rel.ite (fun h0 => ?_) fun h0 => ?_
  · refine Rel.ite (fun _ => .err) fun _ => ?_
    refine Rel.bind (getBlock_rel (Perm.le_shared ⟨.shared, a⟩) o0 n 0) fun p r ⟨ep, hv, o1, m1⟩ => ?_
    obtain ⟨r1, z1⟩ := r
    simp only at ep hv o1 m1
    subst ep
    refine Rel.bind (getMask_rel hv) fun m r ⟨em, _, o2, m2⟩ => ?_
    obtain ⟨r2, z2⟩ := r
    simp only at em o2 m2
    subst em
    exact Rel.skip (leave_own (o2 _ o1)) (.ok ⟨rfl, hc0.mono ((m1 trivial).trans m2), (o2 _ o1).tail,
      (m0 rfl).trans ((m1 trivial).trans m2)⟩)
  · refine Rel.bind (Q := fun (p : BPtr) (r : TPtr × St) => r.1.ptr = p ∧
      Valid r.2 .shared (n - 1) (⟨.shared, a⟩ :: i :: ys) r.1 ∧ Own g.levels.length r.2 (⟨.shared, a⟩ :: i :: ys) ∧ Mono z0 r.2) ?_
      fun p r ⟨ep, hv, o1, m1⟩ => ?_
    · refine Rel.ite (fun h1 => ?_) fun h1 => ?_
      · subst h1
        exact Rel.weaken (getBlock_rel (Perm.le_shared ⟨.shared, a⟩) o0 0 0) fun _ _ ⟨a, b, c, d⟩ => ⟨a, b, c, d rfl⟩
      · unfold erase
        have e : Rel (fun b (a : TPtr) => b = a.ptr ∧ c[n - 1 - 1]? = some (some a))
            (getU (c.map (Option.map TPtr.ptr)) (n - 1 - 1) >>= fun o => unwrapU o)
            (getU c (n - 1 - 1) >>= fun o => unwrapU o) := by
          refine Rel.bind (getU_map _ _ _) fun b a ⟨e1, e2⟩ => ?_
          subst e1
          exact Rel.weaken (unwrap_map _ _) fun _ _ ⟨e3, e4⟩ => ⟨e3, by rw [e2, e4]⟩
        revert e
        show Rel _ (getU (c.map (Option.map TPtr.ptr)) (n - 1 - 1) >>= fun o => unwrapU o) _ →
          Rel _ (getU (c.map (Option.map TPtr.ptr)) (n - 1 - 1) >>= fun o => unwrapU o)
          (getU c (n - 1 - 1) >>= fun o => unwrapU o >>= fun p => Except.ok (p, z0))
        rw [← bind_assoc_R]
        generalize (getU (c.map (Option.map TPtr.ptr)) (n - 1 - 1) >>= fun o => unwrapU o) = x
        generalize (getU c (n - 1 - 1) >>= fun o => unwrapU o) = y
        intro e
        cases e with
        | err => exact .err
        | ok q =>
          have hv := hc0.valid q.2 (⟨.shared, a⟩ :: i :: ys)
          rw [show n - 1 - 1 + 1 = n - 1 by omega] at hv
          exact .ok ⟨q.1.symm, hv, o0, Mono.refl z0⟩
    · obtain ⟨r1, z1⟩ := r
      simp only at ep hv o1 m1
      subst ep
      refine Rel.bind (getChild_rel hv k) fun bi r ⟨eb, _, o2, m2⟩ => ?_
      obtain ⟨r2, z2⟩ := r
      simp only at eb o2 m2
      subst eb
      refine Rel.bind (getBlock_rel (Perm.le_shared ⟨.shared, a⟩) (o2 _ o1) n r2) fun p r ⟨ep, hv3, o3, m3⟩ => ?_
      obtain ⟨r3, z3⟩ := r
      simp only at ep hv3 o3 m3
      subst ep
      have hm3 : Mono z0 z3 := (m1.trans m2).trans (m3 trivial)
      have hv3' : Valid z3 .shared (n - 1 + 1) (⟨.shared, a⟩ :: i :: ys) r3 := by
        rw [show n - 1 + 1 = n by omega]; exact hv3
      have hset : Rel (fun a b => a = erase b ∧ b = c.set (n - 1) (some r3))
          (setU (erase c) (n - 1) (some r3.ptr)) (setU c (n - 1) (some r3)) := by
        unfold setU erase
        rw [List.length_map]
        refine Rel.ite (fun _ => .ok ⟨?_, rfl⟩) fun _ => .err
        rw [List.map_set]; rfl
      refine Rel.bind hset fun a b ⟨ea, eb⟩ => ?_
      subst ea eb
      refine Rel.bind (getMask_rel hv3) fun m r ⟨em, _, o4, m4⟩ => ?_
      obtain ⟨r4, z4⟩ := r
      simp only at em o4 m4
      subst em
      exact Rel.skip (leave_own (o4 _ o3))
        (.ok ⟨rfl, ((hc0.mono hm3).set hv3').mono m4, (o4 _ o3).tail, (m0 rfl).trans (hm3.trans m4)⟩)

theorem curData_rel (hD : 1 ≤ D) (ho : Own g.levels.length z (i :: ys)) (hc : Live D z c) (k : Nat) :
    Rel (fun a r => r.1 = a ∧ Kept g (i :: ys) z r.2)
      (Typed.curData D (erase c) g k) (curData D c g (some i.tag) k z) := by
  unfold curData Typed.curData
  obtain ⟨a, z0, e0, o0, -, m0⟩ := own_retag (pm := .shared) (Perm.le_shared i) ho
  have hc0 := hc.mono (m0 rfl)
  refine Rel.skip e0 ?_
  refine Rel.bind (Q := fun (p : BPtr) (r : TPtr × St) => r.1.ptr = p ∧
    Valid r.2 .shared (D - 1) (⟨.shared, a⟩ :: i :: ys) r.1 ∧ Own g.levels.length r.2 (⟨.shared, a⟩ :: i :: ys) ∧ Mono z0 r.2) ?_
    fun p r ⟨ep, hv, o1, m1⟩ => ?_
  · refine Rel.ite (fun h1 => ?_) fun h1 => ?_
    · subst h1
      exact Rel.weaken (getBlock_rel (Perm.le_shared ⟨.shared, a⟩) o0 0 0) fun _ _ ⟨a, b, c, d⟩ => ⟨a, b, c, d rfl⟩
    · unfold erase
      have e : Rel (fun b (a : TPtr) => b = a.ptr ∧ c[D - 1 - 1]? = some (some a))
          (unwrapU (c.map (Option.map TPtr.ptr)).getLast? >>= fun o => unwrapU o)
          (unwrapU c.getLast? >>= fun o => unwrapU o) := by
        rw [List.getLast?_map]
        refine Rel.bind (unwrap_map _ _) fun b a ⟨e1, e2⟩ => ?_
        subst e1
        refine Rel.weaken (unwrap_map _ _) fun _ _ ⟨e3, e4⟩ => ⟨e3, ?_⟩
        rw [List.getLast?_eq_getElem?, hc.len] at e2
        rw [e2, e4]
      revert e
      show Rel _ (unwrapU (c.map (Option.map TPtr.ptr)).getLast? >>= fun o => unwrapU o) _ →
        Rel _ (unwrapU (c.map (Option.map TPtr.ptr)).getLast? >>= fun o => unwrapU o)
        (unwrapU c.getLast? >>= fun o => unwrapU o >>= fun p => Except.ok (p, z0))
      rw [← bind_assoc_R]
      generalize (unwrapU (c.map (Option.map TPtr.ptr)).getLast? >>= fun o => unwrapU o) = x
      generalize (unwrapU c.getLast? >>= fun o => unwrapU o) = y
      intro e
      cases e with
      | err => exact .err
      | ok q =>
        have hv := hc0.valid q.2 (⟨.shared, a⟩ :: i :: ys)
        rw [show D - 1 - 1 + 1 = D - 1 by omega] at hv
        exact .ok ⟨q.1.symm, hv, o0, Mono.refl z0⟩
  · obtain ⟨r1, z1⟩ := r
    simp only at ep hv o1 m1
    subst ep
    refine Rel.bind (getChild_rel hv k) fun bi r ⟨eb, _, o2, m2⟩ => ?_
    obtain ⟨r2, z2⟩ := r
    simp only at eb o2 m2
    subst eb
    refine Rel.ite (fun _ => Rel.skip (leave_own (o2 _ o1)) (.ok ⟨rfl, (o2 _ o1).tail, (m0 rfl).trans (m1.trans m2)⟩))
      fun _ => ?_
    refine Rel.same fun v _ => Rel.same fun v _ => ?_
    obtain ⟨z3, e3, o3, -, m3⟩ := field_own (Perm.le_shared ⟨.shared, a⟩) (o2 _ o1) (mem_values _)
    exact Rel.skip e3 (Rel.skip (leave_own o3) (.ok ⟨rfl, o3.tail, (m0 rfl).trans ((m1.trans m2).trans (m3 rfl))⟩))

end

/-! ## All uses of a shared tree -/

/-- The uses without aliasing rules, on the cursors of `Typed`. -/
def plainStep (N D : Nat) (g : GT α) (cs : List Typed.Cursor) : Use → R (Ret α × List Typed.Cursor)
  | .get k => do
    let v ← (Typed.impl α N D).get g k
    return (.value v, cs)
  | .getOrDefault k => do
    let v ← Typed.getOrDefault N D g k
    return (.value (some v), cs)
  | .keyValues => do
    let kv ← Typed.keyValues g
    return (.pairs kv, cs)
  | .new => do
    let c ← (Typed.impl α N D).new g
    return (.unit, cs ++ [c])
  | .select j n i => do
    let c ← getP cs j
    let (m, c) ← (Typed.impl α N D).select c g n i
    return (.mask m, cs.set j c)
  | .data j i => do
    let c ← getP cs j
    let v ← (Typed.impl α N D).curData c g i
    return (.value v, cs)

/-- Any sequence of them. -/
def plainRun (N D : Nat) (g : GT α) : List Typed.Cursor → List Use → R (List (Ret α) × List Typed.Cursor)
  | cs, [] => .ok ([], cs)
  | cs, u :: us => do
    let (r, cs) ← plainStep N D g cs u
    let (rs, cs) ← plainRun N D g cs us
    return (r :: rs, cs)

theorem getP_map {A B : Type} (f : A → B) (l : List A) (j : Nat) :
    Rel (fun b a => b = f a ∧ l[j]? = some a) (getP (l.map f) j) (getP l j) := by
  unfold getP
  rw [List.getElem?_map]
  cases h : l[j]? with
  | none => exact .err
  | some a => exact .ok ⟨rfl, rfl⟩

section
variable {g : GT α} {i : Item} {ys : List Item} {D : Nat}

theorem useStep_rel (N : Nat) (hD : 1 ≤ D) (cs : List Cursor) {z : St} (ho : Own g.levels.length z (i :: ys))
    (hc : ∀ c ∈ cs, Live D z c) (u : Use) :
    Rel (fun a r => a = (r.1.1, r.1.2.map erase) ∧ Own g.levels.length r.2 (i :: ys) ∧
        (∀ c ∈ r.1.2, Live D r.2 c) ∧ Mono z r.2)
      (plainStep N D g (cs.map erase) u) (useStep N D g (some i.tag) cs z u) := by
  cases u with
  | get k =>
    refine Rel.bind (get_rel N D ho k) fun a r ⟨e, o, m⟩ => ?_
    subst e
    exact .ok ⟨rfl, o, fun c h => (hc c h).mono m, m⟩
  | getOrDefault k =>
    refine Rel.bind (getOrDefault_rel N D ho k) fun a r ⟨e, o, m⟩ => ?_
    subst e
    exact .ok ⟨rfl, o, fun c h => (hc c h).mono m, m⟩
  | keyValues =>
    refine Rel.bind (keyValues_rel ho) fun a r ⟨e, o, m⟩ => ?_
    subst e
    exact .ok ⟨rfl, o, fun c h => (hc c h).mono m, m⟩
  | new =>
    refine .ok ⟨?_, ho, fun c h => ?_, .refl z⟩
    · simp [erase]
    · rcases List.mem_append.1 h with h | h
      · exact hc c h
      · rw [List.mem_singleton.1 h]
        refine ⟨by simp, fun j p hp => ?_⟩
        rw [List.getElem?_replicate] at hp
        split at hp <;> cases hp
  | select j n k =>
    refine Rel.bind (getP_map erase cs j) fun b c ⟨e1, e2⟩ => ?_
    subst e1
    have hcj := hc c (List.mem_of_getElem? e2)
    refine Rel.bind (curSelect_rel ho hcj n k) fun a r ⟨e, l, K⟩ => ?_
    subst e
    obtain ⟨⟨r1, r2⟩, r3⟩ := r
    refine .ok ⟨?_, K.own, fun d hd => ?_, K.mono⟩
    · simp only [List.map_set]
    · rcases List.mem_or_eq_of_mem_set hd with h | h
      · exact (hc d h).mono K.mono
      · rw [h]; exact l
  | data j k =>
    refine Rel.bind (getP_map erase cs j) fun b c ⟨e1, e2⟩ => ?_
    subst e1
    refine Rel.bind (curData_rel hD ho (hc c (List.mem_of_getElem? e2)) k) fun a r ⟨e, K⟩ => ?_
    subst e
    exact .ok ⟨rfl, K.own, fun d hd => (hc d hd).mono K.mono, K.mono⟩

theorem useRun_rel (N : Nat) (hD : 1 ≤ D) : ∀ (us : List Use) (cs : List Cursor) (z : St),
    Own g.levels.length z (i :: ys) → (∀ c ∈ cs, Live D z c) →
    Rel (fun a r => a = (r.1.1, r.1.2.map erase) ∧ Mono z r.2)
      (plainRun N D g (cs.map erase) us) (useRun N D g (some i.tag) cs z us)
  | [], cs, z, _, _ => .ok ⟨rfl, .refl z⟩
  | u :: us, cs, z, ho, hc => by
    unfold plainRun useRun
    refine Rel.bind (useStep_rel N hD cs ho hc u) fun a r ⟨e, o, l, m⟩ => ?_
    subst e
    obtain ⟨⟨r1, r2⟩, z1⟩ := r
    refine Rel.bind (useRun_rel N hD us r2 z1 o l) fun a r ⟨e, m'⟩ => ?_
    subst e
    exact .ok ⟨rfl, m.trans m'⟩

/-- Users of a shared tree: as without aliasing rules, from any state of the borrows. -/
theorem share_rel (N : Nat) (hD : 1 ≤ D) (us : List Use) (z : St) :
    Rel (fun a r => r.1 = a.1 ∧ Mono z r.2) (plainRun N D g [] us) (share N D g us z) := by
  obtain ⟨n, z1, e1, o1, m1⟩ := own_none g.levels.length .shared z
  unfold share
  refine Rel.skip e1 ?_
  have h := useRun_rel (g := g) (i := ⟨.shared, n⟩) N hD us [] z1 o1 (fun c h => by simp at h)
  revert h
  show Rel _ (plainRun N D g [] us) (useRun N D g (some n) [] z1 us) → _
  simp only
  generalize plainRun N D g [] us = x
  generalize useRun N D g (some n) [] z1 us = y
  intro h
  cases h with
  | ok q => rw [q.1]; exact .ok ⟨rfl, (m1 rfl).trans q.2⟩
  | err => exact .err

end

end Hibit.SAlias
