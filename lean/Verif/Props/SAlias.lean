import Verif.SAlias.Run
import Verif.Props.Typed
/-!
# C89: SparseTree obeys Rust's aliasing rules

The functions of SparseTree with every reference they make into the tree and every raw block pointer, under Stacked Borrows
(`SAlias/Model`): an access through a pointer whose borrow has been invalidated, or the invalidation of a reference passed to a
function before it returns, is undefined behaviour (`Err.ub`). A result
`.ok` therefore says that there was none.
-/
namespace Hibit.Props
open Hibit Hibit.Sparse

section
variable {α : Type} {N D : Nat} {dflt : Option α}

/-- **C89**: every supported history of a new SparseTree makes no access through an invalidated pointer, whatever borrows of the
tree are on the stacks when it starts: with all borrows checked each operation still returns what it returns on the map, and the
tree reached is one with the map's `get` and iteration. -/
theorem C89_history {ops : List (Op α)} (h : SparseHistory N D dflt ops) (z : SAlias.St) :
    ∃ g z', SAlias.run N D (Typed.default α N D dflt) ops z = .ok ((g, (specRun dflt emptyMap ops).2), z') ∧
      GetIterIs (Typed.impl α N D) g (specRun dflt emptyMap ops).1 := by
  obtain ⟨g, e, hg, -⟩ := C72_typed h
  obtain ⟨⟨r, z'⟩, e', q⟩ := (SAlias.run_rel N h.cfg.pos h.cfg.le ops (Typed.default_tr (D := D) N dflt) z).ok_inv e
  simp only at q
  subst q
  exact ⟨g, z', e', hg⟩

/-- **C89**, for every history at all (keys out of range, index types exhausted): checking the borrows adds no failure and
changes no result. -/
theorem C89_same (hc : Cfg N D) (ops : List (Op α)) (z : SAlias.St) :
    (SAlias.run N D (Typed.default α N D dflt) ops z).map (·.1) = Typed.run N D (Typed.default α N D dflt) ops := by
  have h := SAlias.run_rel N hc.pos hc.le ops (Typed.default_tr (α := α) (D := D) N dflt) z
  generalize SAlias.run N D (Typed.default α N D dflt) ops z = x at h
  generalize Typed.run N D (Typed.default α N D dflt) ops = y at h
  cases h with
  | ok q => rw [← q]; rfl
  | err => rfl

/-! ## A tree that is changed and lent in turn -/

/-- A part of a tree's life: its owner runs operations, or lends it (`&tree`) to users who look up keys, list the key-value pairs
and move any number of cursors. -/
inductive Phase (α : Type) where
  | own (ops : List (Op α))
  | lend (us : List SAlias.Use)

/-- What a phase returns. -/
inductive PhaseOut (α : Type) where
  | own (outs : List (Option α × List α))
  | lend (rs : List (SAlias.Ret α))

/-- A life of a tree with its borrows, to its drop (`required`: whether it has a default value): what its phases return and the
values its drop drops. -/
def life (required : Bool) (N D : Nat) (g : Typed.GT α) (z : SAlias.St) : List (Phase α) → R (List (PhaseOut α) × List α)
  | [] => do
    let (vs, _) ← SAlias.dropImpl required g z
    return ([], vs)
  | .own ops :: ps => do
    let ((g, outs), z) ← SAlias.run N D g ops z
    let (rest, vs) ← life required N D g z ps
    return (.own outs :: rest, vs)
  | .lend us :: ps => do
    let (rs, z) ← SAlias.share N D g us z
    let (rest, vs) ← life required N D g z ps
    return (.lend rs :: rest, vs)

/-- The operations of the owner in a life. -/
def lifeOps : List (Phase α) → List (Op α)
  | [] => []
  | .own ops :: ps => ops ++ lifeOps ps
  | .lend _ :: ps => lifeOps ps

/-- The node a cursor at `pos` (`none`: nothing selected yet) selects with `select_level_node(n, i)`. -/
def selects (pos : Option (List Nat)) : Nat → Nat → List Nat
  | 0, _ => []
  | n + 1, i => (pos.getD []).take n ++ [i]

/-- The trait's conditions on a use, the cursors standing at `cs`: keys in range; the levels above a selected one are selected;
data is asked of a selected terminal node. -/
def UseLegal (N D : Nat) (dflt : Option α) (cs : List (Option (List Nat))) : SAlias.Use → Prop
  | .get k => k < Sparse.keyRange N D
  | .getOrDefault k => k < Sparse.keyRange N D ∧ dflt.isSome
  | .keyValues => True
  | .new => True
  | .select j n i => ∃ pos, cs[j]? = some pos ∧ i < width N ∧ (n = 0 → i = 0) ∧
      ∀ m, n = m + 1 → n < D ∧ ∃ p, pos = some p ∧ m ≤ p.length
  | .data j i => ∃ p, cs[j]? = some (some p) ∧ p.length + 1 = D ∧ i < width N

/-- Where the cursors stand after a use. -/
def standAfter (cs : List (Option (List Nat))) : SAlias.Use → List (Option (List Nat))
  | .new => cs ++ [none]
  | .select j n i => cs.set j (some (selects (cs[j]?.getD none) n i))
  | _ => cs

/-- A sequence of legal uses. -/
def UsesLegal (N D : Nat) (dflt : Option α) : List (Option (List Nat)) → List SAlias.Use → Prop
  | _, [] => True
  | cs, u :: us => UseLegal N D dflt cs u ∧ UsesLegal N D dflt (standAfter cs u) us

/-- What a use of a tree with content `M` must return: the value of the key; the pairs of the map; the mask whose bits are the
children below which something is stored; the value of the key the cursor points to. -/
def UseAnswer (N D : Nat) (dflt : Option α) (M : Nat → Option α) (cs : List (Option (List Nat))) :
    SAlias.Use → SAlias.Ret α → Prop
  | .get k, r => r = .value (M k)
  | .getOrDefault k, r => r = .value ((M k).or dflt)
  | .keyValues, r => ∃ (ks : List Nat) (vs : List α), r = .pairs (ks, vs.map some) ∧ ks.length = vs.length ∧ ks.Nodup ∧
      ∀ k v, (k, v) ∈ ks.zip vs ↔ k < width N ^ D ∧ M k = some v
  | .new, r => r = .unit
  | .select j n i, r => ∃ m, r = .mask m ∧ m.length = N ∧
      ∀ b, b < width N → (m.bit b = true ↔ Below (width N) D M (selects (cs[j]?.getD none) n i ++ [b]))
  | .data j i, r => ∃ p, cs[j]? = some (some p) ∧ r = .value (M (unpath (width N) (p ++ [i])))

/-- The same for a sequence. -/
def UsesAnswer (N D : Nat) (dflt : Option α) (M : Nat → Option α) :
    List (Option (List Nat)) → List SAlias.Use → List (SAlias.Ret α) → Prop
  | _, [], rs => rs = []
  | cs, u :: us, rs => ∃ r rs', rs = r :: rs' ∧ UseAnswer N D dflt M cs u r ∧
      UsesAnswer N D dflt M (standAfter cs u) us rs'

/-- What a life must return, starting with content `M`; its drop drops the default value and each stored value once. -/
def LifeAnswer (N D : Nat) (dflt : Option α) : (Nat → Option α) → List (Phase α) → List (PhaseOut α) → List α → Prop
  | M, [], os, vs => os = [] ∧ ∃ ws, vs = dflt.toList ++ ws ∧ List.Perm ws (valuesOf (width N ^ D) M)
  | M, .own ops :: ps, os, vs => ∃ os', os = .own (specRun dflt M ops).2 :: os' ∧
      LifeAnswer N D dflt (specRun dflt M ops).1 ps os' vs
  | M, .lend us :: ps, os, vs => ∃ rs os', os = .lend rs :: os' ∧ UsesAnswer N D dflt M [] us rs ∧
      LifeAnswer N D dflt M ps os' vs

/-! ### Proofs -/

/-- The tree reached by a history and its abstract counterpart. -/
theorem typed_reached {ops : List (Op α)} (h : SparseHistory N D dflt ops) {g : Typed.GT α} {outs : List (Option α × List α)}
    (e : Typed.run N D (Typed.default α N D dflt) ops = .ok (g, outs)) :
    outs = (specRun dflt emptyMap ops).2 ∧ ∃ t, SparseReached N D dflt ops t ∧ Typed.TR D t g ∧
      IsTreeC (Typed.impl α N D) g (specRun dflt emptyMap ops).1 := by
  obtain ⟨t, et, -⟩ := C19_sparse_map h
  obtain ⟨⟨g', o⟩, e', T, q⟩ := (Typed.run_rel h.cfg.pos h.cfg.le N ops (Typed.default_tr N dflt)).ok_inv et
  rw [e] at e'
  cases e'
  obtain ⟨g2, e2, -, ht⟩ := C72_typed h
  rw [e] at e2
  cases e2
  exact ⟨rfl, t, ⟨_, et⟩, T, ht⟩

theorem selects_path (pos : Option (List Nat)) (n i : Nat) : (⟨true, n, i⟩ : Move).path pos = selects pos n i := by
  cases n <;> rfl

/-- Cursors and where they stand. -/
def Stand (W : Nat) (K : CursorRel Typed.Cursor) (ts : List Typed.Cursor) (cs : List (Option (List Nat))) : Prop :=
  ts.length = cs.length ∧ ∀ (j : Nat) (c : Typed.Cursor) (pos : Option (List Nat)), ts[j]? = some c → cs[j]? = some pos →
    match pos with
    | none => K.inv c
    | some p => K.posC c p ∧ ValidPath W p

theorem Stand.get {W : Nat} {K : CursorRel Typed.Cursor} {ts : List Typed.Cursor} {cs : List (Option (List Nat))}
    (h : Stand W K ts cs) {j : Nat} {pos : Option (List Nat)} (e : cs[j]? = some pos) : ∃ c, ts[j]? = some c := by
  have := (List.getElem?_eq_some_iff.1 e).1
  exact ⟨_, List.getElem?_eq_getElem (by rw [h.1]; exact this)⟩

theorem plain_answers {ops : List (Op α)} (h : SparseHistory N D dflt ops) {g : Typed.GT α} {t : ST α}
    (hr : SparseReached N D dflt ops t) (T : Typed.TR D t g) {TS : TreeSpec α} {K : CursorRel Typed.Cursor}
    (L : LawfulC (Typed.impl α N D) g TS K)
    (hc : ∀ i, i < width N ^ D → TS.content (path (width N) D i) = (specRun dflt emptyMap ops).1 i) :
    ∀ (us : List SAlias.Use) (ts : List Typed.Cursor) (cs : List (Option (List Nat))), Stand (width N) K ts cs →
      UsesLegal N D dflt cs us → ∃ rs ts', SAlias.plainRun N D g ts us = .ok (rs, ts') ∧
        UsesAnswer N D dflt (specRun dflt emptyMap ops).1 cs us rs
  | [], ts, cs, _, _ => ⟨[], ts, rfl, rfl⟩
  | u :: us, ts, cs, hs, hl => by
    have hT : IsTree (Typed.impl α N D) g (specRun dflt emptyMap ops).1 := ⟨TS, K, L.toLawful, hc⟩
    have hB : MaskSpec (width N) D true (specRun dflt emptyMap ops).1 TS.bits := maskSpec (I := Typed.impl α N D) L.wf hc
    obtain ⟨hu, hl⟩ := hl
    suffices hstep : ∃ r ts', SAlias.plainStep N D g ts u = .ok (r, ts') ∧
        UseAnswer N D dflt (specRun dflt emptyMap ops).1 cs u r ∧ Stand (width N) K ts' (standAfter cs u) by
      obtain ⟨r, ts1, e1, a1, s1⟩ := hstep
      obtain ⟨rs, ts2, e2, a2⟩ := plain_answers h hr T L hc us ts1 _ s1 hl
      refine ⟨r :: rs, ts2, ?_, r, rs, rfl, a1, a2⟩
      simp only [SAlias.plainRun, e1, bind_ok, e2, pure_eq_ok]
    cases u with
    | get k =>
      have hg := tree_get hT (i := k)
      rw [if_pos (by exact hu)] at hg
      refine ⟨.value ((specRun dflt emptyMap ops).1 k), ts, ?_, rfl, hs⟩
      simp only [SAlias.plainStep, hg, bind_ok, pure_eq_ok]
    | getOrDefault k =>
      obtain ⟨d, hd⟩ := Option.isSome_iff_exists.1 hu.2
      obtain ⟨B, S⟩ := h.rep hr
      have e := S.getOrDefault_spec h.cfg hu.1 hd
      rw [← Typed.getOrDefault_rel h.cfg.pos h.cfg.le N T] at e
      refine ⟨.value (some (((specRun dflt emptyMap ops).1 k).getD d)), ts, ?_, ?_, hs⟩
      · simp only [SAlias.plainStep, e, bind_ok, pure_eq_ok]
      · show SAlias.Ret.value _ = SAlias.Ret.value _
        rw [hd]
        generalize (specRun (some d) emptyMap ops).1 k = o
        cases o <;> rfl
    | keyValues =>
      obtain ⟨ks, vs, e, e2, e3, e4⟩ := C21_key_values h hr
      have e' : Typed.keyValues g = .ok (ks, vs.map some) := by
        rw [← e]
        simp only [Typed.keyValues, Sparse.keyValues, T.values, T.keys]
      refine ⟨.pairs (ks, vs.map some), ts, ?_, ⟨ks, vs, rfl, e2, e3, e4⟩, hs⟩
      simp only [SAlias.plainStep, e', bind_ok, pure_eq_ok]
    | new =>
      obtain ⟨c0, e0, h0⟩ := L.new_ok
      refine ⟨.unit, ts ++ [c0], ?_, rfl, by simp [standAfter, hs.1], fun j c pos e1 e2 => ?_⟩
      · simp only [SAlias.plainStep, e0, bind_ok, pure_eq_ok]
      · simp only [standAfter] at e2
        by_cases hj : j < ts.length
        · rw [List.getElem?_append_left hj] at e1
          rw [List.getElem?_append_left (by rw [← hs.1]; exact hj)] at e2
          exact hs.2 j c pos e1 e2
        · rw [List.getElem?_append_right (Nat.le_of_not_lt hj)] at e1
          rw [List.getElem?_append_right (by rw [← hs.1]; exact Nat.le_of_not_lt hj)] at e2
          rw [hs.1] at e1
          rw [List.getElem?_singleton] at e1 e2
          split at e1
          · rename_i hz
            rw [if_pos hz] at e2
            cases e1; cases e2
            exact h0
          · cases e1
    | select j n i =>
      obtain ⟨pos, ec, hi, h0, hn⟩ := hu
      obtain ⟨c, et⟩ := hs.get ec
      have hst := hs.2 j c pos et ec
      have hat : CurAt K c pos := by
        cases pos with
        | none => exact hst
        | some p => exact L.posC_pos _ _ hst.1
      have hval : ∀ p, pos = some p → ValidPath (width N) p := by
        rintro p rfl; exact hst.2
      have hleg : (⟨true, n, i⟩ : Move).Legal (width N) D TS.bits pos := by
        refine ⟨hi, h0, fun m hm => ?_⟩
        obtain ⟨h1, p, h2, h3⟩ := hn m hm
        have h1' : n < D := h1
        have hm' : n = m + 1 := hm
        exact ⟨by omega, p, h2, h3, fun e => by cases e⟩
      obtain ⟨m, c', e1, l1, b1, -, p1, v1⟩ := move_spec (I := Typed.impl α N D) L.toLawful hat hval hleg
      simp only [if_true] at e1
      rw [selects_path] at b1 p1 v1
      have hD := L.cfg.depth
      have hlen : (selects pos n i).length < D := by
        cases n with
        | zero => exact L.cfg.depth
        | succ n =>
          obtain ⟨h1, p, rfl, h3⟩ := hn n rfl
          simp only [selects, Option.getD_some, List.length_append, List.length_take, List.length_singleton]
          omega
      refine ⟨.mask m, ts.set j c', ?_, ⟨m, rfl, l1, fun b hb => ?_⟩, ?_⟩
      · simp only [SAlias.plainStep, getP_some et, bind_ok, e1, pure_eq_ok]
      · rw [ec, Option.getD_some, b1 b]
        exact ⟨hB.exact rfl _ _ v1 hlen, hB.below _ _ hlen⟩
      · refine ⟨by simp [standAfter, hs.1], fun k d q f1 f2 => ?_⟩
        simp only [standAfter, ec, Option.getD_some] at f2
        by_cases hk : j = k
        · subst hk
          rw [List.getElem?_set_self (List.getElem?_eq_some_iff.1 et).1] at f1
          rw [List.getElem?_set_self (List.getElem?_eq_some_iff.1 ec).1] at f2
          cases f1; cases f2
          exact ⟨p1 rfl, v1⟩
        · rw [List.getElem?_set_ne hk] at f1 f2
          exact hs.2 k d q f1 f2
    | data j i =>
      obtain ⟨p, ec, hd, hi⟩ := hu
      obtain ⟨c, et⟩ := hs.get ec
      have hst := hs.2 j c _ et ec
      have e := L.curData_eq c p i hst.1 hst.2 hi hd
      have hlen : (p ++ [i]).length = D := by simpa using hd
      refine ⟨.value ((specRun dflt emptyMap ops).1 (unpath (width N) (p ++ [i]))), ts, ?_, ⟨p, ec, rfl⟩, hs⟩
      rw [content_of (I := Typed.impl α N D) hc (ValidPath.append hst.2 hi) hlen] at e
      simp only [SAlias.plainStep, getP_some et, bind_ok, e, pure_eq_ok]
      rfl

theorem typed_run_append : ∀ (xs ys : List (Op α)) (g : Typed.GT α), Typed.run N D g (xs ++ ys) = (do
    let (g, os) ← Typed.run N D g xs
    let (g, os') ← Typed.run N D g ys
    return (g, os ++ os'))
  | [], ys, g => by
    simp only [List.nil_append, Typed.run, bind_ok]
    cases Typed.run N D g ys <;> rfl
  | x :: xs, ys, g => by
    simp only [List.cons_append, Typed.run, bind_assoc_R]
    congr 1; funext r
    simp only [typed_run_append xs ys, bind_assoc_R]
    congr 1

theorem specRun_append' : ∀ (xs ys : List (Op α)) (M : Nat → Option α), specRun dflt M (xs ++ ys) =
    ((specRun dflt (specRun dflt M xs).1 ys).1, (specRun dflt M xs).2 ++ (specRun dflt (specRun dflt M xs).1 ys).2)
  | [], ys, M => rfl
  | x :: xs, ys, M => by
    simp only [List.cons_append, specRun, specRun_append' xs ys]

theorem always_left {P : (Nat → Option α) → Prop} : ∀ (xs ys : List (Op α)) (M : Nat → Option α),
    Always dflt P M (xs ++ ys) → Always dflt P M xs
  | [], _, _, h => h.head
  | _ :: xs, ys, _, h => ⟨h.1, always_left xs ys _ h.2⟩

theorem history_left {xs ys : List (Op α)} (h : SparseHistory N D dflt (xs ++ ys)) : SparseHistory N D dflt xs :=
  ⟨h.cfg, fun op ho => h.ok op (List.mem_append_left _ ho), always_left xs ys _ h.fits⟩

theorem life_answers : ∀ (ps : List (Phase α)) (pre : List (Op α)) (g : Typed.GT α) (outs : List (Option α × List α)),
    Typed.run N D (Typed.default α N D dflt) pre = .ok (g, outs) → SparseHistory N D dflt (pre ++ lifeOps ps) →
    (∀ us, Phase.lend us ∈ ps → UsesLegal N D dflt [] us) → ∀ z, ∃ os vs, life dflt.isSome N D g z ps = .ok (os, vs) ∧
      LifeAnswer N D dflt (specRun dflt emptyMap pre).1 ps os vs
  | [], pre, g, outs, e, h, _, z => by
    have h1 := history_left h
    obtain ⟨-, t, hr, T, -⟩ := typed_reached h1 e
    obtain ⟨ws, d1, d2⟩ := C26_drop h1 hr
    obtain ⟨⟨r, z'⟩, a1, a2⟩ := (SAlias.dropImpl_rel T dflt.isSome z).ok_inv d1
    simp only at a2
    subst a2
    exact ⟨[], _, by simp only [life, a1, bind_ok, pure_eq_ok], rfl, ws, rfl, d2⟩
  | .own ops :: ps, pre, g, outs, e, h, hl, z => by
    simp only [lifeOps] at h
    rw [← List.append_assoc] at h
    have h1 := history_left h
    obtain ⟨q, t, hr, T, -⟩ := typed_reached (history_left h1) e
    obtain ⟨g2, e2, -, -⟩ := C72_typed h1
    have e3 := e2
    rw [typed_run_append, e] at e3
    simp only [bind_ok] at e3
    obtain ⟨⟨g3, o3⟩, e4, e6⟩ := bind_inv e3
    simp only [pure_eq_ok, Except.ok.injEq, Prod.mk.injEq] at e6
    obtain ⟨rfl, e6⟩ := e6
    rw [specRun_append', q] at e6
    have e5 := List.append_cancel_left e6
    subst e5
    obtain ⟨⟨r, z'⟩, a1, a2⟩ := (SAlias.run_rel N h.cfg.pos h.cfg.le ops T z).ok_inv e4
    simp only at a2
    subst a2
    obtain ⟨os, vs, a3, a4⟩ := life_answers ps (pre ++ ops) g3 _ e2 h
      (fun us hus => hl us (List.mem_cons_of_mem _ hus)) z'
    rw [specRun_append'] at a4
    exact ⟨_, vs, by simp only [life, a1, bind_ok, a3, pure_eq_ok], os, rfl, a4⟩
  | .lend us :: ps, pre, g, outs, e, h, hl, z => by
    simp only [lifeOps] at h
    have h1 := history_left h
    obtain ⟨-, t, hr, T, TS, K, L, hc⟩ := typed_reached h1 e
    obtain ⟨rs, ts', p1, p2⟩ := plain_answers h1 hr T L hc us [] [] ⟨rfl, fun j c pos e => by simp at e⟩
      (hl us (by simp))
    obtain ⟨⟨r, z'⟩, a1, a2, -⟩ := (SAlias.share_rel (g := g) N h.cfg.pos us z).ok_inv p1
    simp only at a2
    subst a2
    obtain ⟨os, vs, a3, a4⟩ := life_answers ps pre g outs e h (fun us hus => hl us (List.mem_cons_of_mem _ hus)) z'
    exact ⟨_, vs, by simp only [life, a1, bind_ok, a3, pure_eq_ok], r, os, rfl, p2, a4⟩

/-- **C89**, the whole life of a tree: its owner changes it and lends it in turn, any number of times, to users who call its `&self`
methods and move any number of cursors in any order. If the owner's operations are a supported history and the users keep the
trait's conditions, then no access is made through an invalidated pointer – neither by an operation that finds the cursors'
pointers of former users still on the stacks nor by a cursor whose neighbours have moved – and everything returned is what the map
gives: each operation's result, the value of a key, the key-value pairs, a mask of exactly the non-empty children, the data under
a cursor; the final drop drops the default value and each stored value once. -/
theorem C89_life (ps : List (Phase α)) (h : SparseHistory N D dflt (lifeOps ps))
    (hl : ∀ us, Phase.lend us ∈ ps → UsesLegal N D dflt [] us) (z : SAlias.St) :
    ∃ os vs, life dflt.isSome N D (Typed.default α N D dflt) z ps = .ok (os, vs) ∧ LifeAnswer N D dflt emptyMap ps os vs :=
  life_answers ps [] _ [] rfl h hl z

/-- **C89**, users of a lent tree who do as they like: whenever a sequence of `&self` and cursor calls is defined without borrows it
has the same results with them. -/
theorem C89_uses (hD : 1 ≤ D) (g : Typed.GT α) (us : List SAlias.Use) (z : SAlias.St) :
    (SAlias.share N D g us z).map (·.1) = (SAlias.plainRun N D g [] us).map (·.1) := by
  have h := SAlias.share_rel (g := g) N hD us z
  generalize SAlias.share N D g us z = x at h
  generalize SAlias.plainRun N D g [] us = y at h
  cases h with
  | ok q => exact congrArg Except.ok q.1
  | err => rfl

/-- **C89**, users do not disturb each other: whatever shared references to the tree's parts, of other users or of an operation in
progress, could be read through before such calls can be read through after them. -/
theorem C89_readers_keep (hD : 1 ≤ D) (g : Typed.GT α) (us : List SAlias.Use) {z z' : SAlias.St} {rs : List (SAlias.Ret α)}
    (e : SAlias.share N D g us z = .ok (rs, z')) {pl : SAlias.Place} {i : Alias.Item} (hi : i ∈ z.stk pl)
    (hp : i.perm = .shared) : i ∈ z'.stk pl ∧ ∃ z'', SAlias.touch pl .read (some i.tag) z' = .ok z'' := by
  have h := SAlias.share_rel (g := g) N hD us z
  rw [e] at h
  generalize SAlias.plainRun N D g [] us = y at h
  cases h with
  | ok q =>
    have hm := q.2 pl i hp hi
    obtain ⟨z'', e'', -⟩ := SAlias.touch_spec (pm := .shared) (fun h => nomatch h) (xs := []) (i := i)
      (List.singleton_sublist.2 hm)
    exact ⟨hm, z'', e''⟩

end

/-! ### The hypotheses are met -/

/-- Insertions; two cursors that move in turn, lookups and the pairs; more changes; another user. -/
def exLife : List (Phase Nat) :=
  [.own [.insert 5 1, .insert 200 2, .insert 128 3, .remove 200],
   .lend [.new, .new, .select 0 0 0, .select 1 0 0, .select 0 1 0, .select 1 1 1, .data 0 5, .data 1 0, .get 200, .keyValues,
     .select 0 1 1, .data 0 0, .getOrDefault 7],
   .own [.insert 9 4, .insert 6400 5, .remove 5],
   .lend [.new, .select 0 0 0, .select 0 1 0, .data 0 9, .data 0 5]]

/-- Every use of it is legal. -/
theorem exLife_legal : ∀ us, Phase.lend us ∈ exLife → UsesLegal 2 2 (some 9) [] us := by
  intro us h
  simp only [exLife, List.mem_cons, List.not_mem_nil, or_false, reduceCtorEq, false_or, Phase.lend.injEq] at h
  have hw : width 2 = 128 := rfl
  have hk : Sparse.keyRange 2 2 = 16384 := by decide
  rcases h with rfl | rfl <;>
    simp [UsesLegal, UseLegal, standAfter, selects, hw, hk]

/-- The operations of its owner. -/
theorem exLife_history : SparseHistory 2 2 (some 9) (lifeOps exLife) := by
  refine .of_small ⟨by decide, by decide, by decide⟩ (by decide) ?_
  intro op h
  have e : Sparse.keyRange 2 2 = 16384 := by decide
  simp only [exLife, lifeOps, List.cons_append, List.nil_append, List.mem_cons, List.not_mem_nil, or_false] at h
  rcases h with rfl | rfl | rfl | rfl | rfl | rfl | rfl <;> simp [Op.Ok, e]

/-- What a phase returned, without the masks; a list of pairs as its keys and values. -/
def outNat : PhaseOut Nat → List (List (Option Nat))
  | .own outs => outs.map (fun o => [o.1])
  | .lend rs => rs.map (fun r => match r with
    | .value v => [v]
    | .pairs kv => kv.1.map some ++ kv.2
    | _ => [])

/-- It runs, computed by the kernel. -/
example : (do
    let (os, vs) ← life true 2 2 (Typed.default Nat 2 2 (some 9)) ⟨fun _ => [], 0⟩ exLife
    return (os.map outNat, vs) : R _) =
    .ok ([[[none], [none], [none], [some 2]],
      [[], [], [], [], [], [], [some 1], [some 3], [none], [some 5, some 128, some 1, some 3], [], [some 3], [some 9]],
      [[none], [none], [some 1]], [[], [], [], [some 4], [none]]], [9, 5, 3, 4]) := by decide +kernel

example : ∃ os vs, life true 2 2 (Typed.default Nat 2 2 (some 9)) ⟨fun _ => [⟨.uniq, 3⟩, ⟨.shared, 7⟩], 8⟩ exLife = .ok (os, vs) ∧
    LifeAnswer 2 2 (some 9) emptyMap exLife os vs := C89_life exLife exLife_history exLife_legal _

example : ∃ g z', SAlias.run 2 2 (Typed.default Nat 2 2 (some 9)) exOpsS ⟨fun _ => [⟨.uniq, 3⟩], 8⟩ =
    .ok ((g, (specRun (some 9) emptyMap exOpsS).2), z') := by
  obtain ⟨g, z', e, -⟩ := C89_history exOpsS_history ⟨fun _ => [⟨.uniq, 3⟩], 8⟩
  exact ⟨g, z', e⟩

/-- A reference to the root block that is still held while others use the tree is read after them, where an insertion would have
invalidated it. -/
example : (do
    let (g, z) := (Typed.default Nat 2 2 (some 9), (⟨fun _ => [], 0⟩ : SAlias.St))
    let ((g, _), z) ← SAlias.run 2 2 g [.insert 5 1, .insert 200 2] z
    let (t, z) ← SAlias.retag .shared none [.head 0] z
    let (rs, z) ← SAlias.share 2 2 g [.new, .select 0 0 0, .select 0 1 1, .data 0 72, .get 5] z
    let _ ← SAlias.touch (.head 0) .read t z
    return rs.map (fun r => match r with | .value v => v | _ => none) : R _) = .ok [none, none, none, some 2, some 1] ∧
  (do
    let (g, z) := (Typed.default Nat 2 2 (some 9), (⟨fun _ => [], 0⟩ : SAlias.St))
    let ((g, _), z) ← SAlias.run 2 2 g [.insert 5 1, .insert 200 2] z
    let (t, z) ← SAlias.retag .shared none [.head 0] z
    let ((_, os), z) ← SAlias.run 2 2 g [.insert 6400 3] z
    let _ ← SAlias.touch (.head 0) .read t z
    return os.map (·.1) : R _) = .error .ub := by
  refine ⟨?_, ?_⟩ <;> decide +kernel

/-! ## What the model rejects

Wrong ways to write the code of sparse_tree.rs. -/

section
open SAlias

/-- sparse_tree.rs:402-437 with the block pointer made before a new block is inserted in the next level, instead of after (the
comment there says that MIRI rejects this; the root block lies inside the tuple that `visit_mut` borrows). -/
def insertKeepingPointer (N n pos inner : Nat) (g : Typed.GT Nat) (z : St) : R St := do
  let (t, z) ← selfMut g z
  let (ptr, z) ← getBlock .uniq g.levels t n pos z
  let (u, z) ← retag .uniq t (heads g.levels.length) z
  let ((new, z), lv) ← Typed.visitMut g.levels (n + 1) fun _ L => do
    let (v, z) ← retag .uniq u [.head (n + 1)] z
    let ((new, z), L) ← insertEmpty N (n + 1) L v z
    leave v [.head (n + 1)] z
    return ((new, z), L)
  let (_, z) ← ptr.insertChild lv n inner new z
  return z

/-- A child set through the pointer of `get_block(&self)`. -/
def insertViaShared (n pos inner item : Nat) (g : Typed.GT Nat) (z : St) : R St := do
  let (t, z) ← selfMut g z
  let (ptr, z) ← getBlock .shared g.levels t n pos z
  let (_, z) ← ptr.insertChild g.levels n inner item z
  return z

/-- Two pointers from `get_block_mut`: the first is used after the second was made. -/
def twoMutable (n pos inner item : Nat) (g : Typed.GT Nat) (z : St) : R St := do
  let (t, z) ← selfMut g z
  let (p, z) ← getBlock .uniq g.levels t n pos z
  let (_, z) ← getBlock .uniq g.levels t n pos z
  let (_, z) ← p.insertChild g.levels n inner item z
  return z

/-- A `&mut` block kept while the block is looked up again with `&self`. -/
def mutableAcrossRead (n pos inner item : Nat) (g : Typed.GT Nat) (z : St) : R St := do
  let (t, z) ← selfMut g z
  let (p, z) ← getBlock .uniq g.levels t n pos z
  let (q, z) ← getBlock .shared g.levels t n pos z
  let (_, z) ← q.getChild g.levels n inner z
  let (_, z) ← p.insertChild g.levels n inner item z
  return z

/-- A cursor's pointer to the root used after a key was replaced – nothing is moved or freed. -/
def cursorAcrossReplace (g : Typed.GT Nat) (z : St) : R (Nat × St) := do
  let (t, z) ← retag .shared none (inline g.levels.length) z
  let (p, z) ← getBlock .shared g.levels t 0 0 z
  let (out, z) ← insert 1 2 g 5 1 z
  p.getChild out.tree.levels 0 0 z

/-- The same with a pointer to a block of the last level. -/
def leafAcrossReplace (g : Typed.GT Nat) (z : St) : R (Nat × St) := do
  let (t, z) ← retag .shared none (inline g.levels.length) z
  let (p, z) ← getBlock .shared g.levels t 1 1 z
  let (out, z) ← insert 1 2 g 5 1 z
  p.getChild out.tree.levels 1 5 z

/-- sparse_tree.rs:302-325 with the empty block given back through the tuple's reference instead of the visitor's argument, as the
visitor's last action. `prot` is whether the end of the visitor is checked: nothing else is wrong with it. -/
def freeThroughTuple (prot : Bool) (n pos : Nat) (g : Typed.GT Nat) (z : St) : R St := do
  let (t, z) ← selfMut g z
  let (u, z) ← retag .uniq t (heads g.levels.length) z
  let (v, z) ← retag .uniq u [.head n] z
  let L ← getP g.levels n
  let z ← removeEmpty n L pos u z
  if prot then leave v [.head n] z
  leave u (heads g.levels.length) z
  leave t (inline g.levels.length) z
  return z

/-- A visitor of `visit_mut` that looks up a block of its level with `get_block(&self)` and no longer uses its argument. -/
def lookUpInVisitor (prot : Bool) (n pos : Nat) (g : Typed.GT Nat) (z : St) : R St := do
  let (t, z) ← selfMut g z
  let (u, z) ← retag .uniq t (heads g.levels.length) z
  let (v, z) ← retag .uniq u [.head n] z
  let (p, z) ← getBlock .shared g.levels t n pos z
  let (_, z) ← p.getMask g.levels n z
  if prot then
    leave v [.head n] z
    leave u (heads g.levels.length) z
  leave t (inline g.levels.length) z
  return z

/-- A tree with one key. -/
def oneKey : R (Typed.GT Nat × St) := do
  let (out, z) ← insert 1 2 (Typed.default Nat 1 2 none) 5 7 ⟨fun _ => [], 0⟩
  return (out.tree, z)

/-- All are undefined behaviour in the model, on a tree on which the right code runs; two of them only because a function's
reference arguments must stay valid until it returns. -/
theorem C89_rejects :
    (do let (g, z) ← oneKey; let _ ← insertKeepingPointer 1 0 0 3 g z; return () : R Unit) = .error .ub ∧
    (do let (g, z) ← oneKey; let _ ← insertViaShared 1 1 3 2 g z; return () : R Unit) = .error .ub ∧
    (do let (g, z) ← oneKey; let _ ← twoMutable 1 1 3 2 g z; return () : R Unit) = .error .ub ∧
    (do let (g, z) ← oneKey; let _ ← mutableAcrossRead 1 1 3 2 g z; return () : R Unit) = .error .ub ∧
    (do let (g, z) ← oneKey; let _ ← cursorAcrossReplace g z; return () : R Unit) = .error .ub ∧
    (do let (g, z) ← oneKey; let _ ← leafAcrossReplace g z; return () : R Unit) = .error .ub ∧
    (do let (g, z) ← oneKey; let _ ← freeThroughTuple true 1 1 g z; return () : R Unit) = .error .ub ∧
    (do let (g, z) ← oneKey; let _ ← freeThroughTuple false 1 1 g z; return () : R Unit) = .ok () ∧
    (do let (g, z) ← oneKey; let _ ← lookUpInVisitor true 1 1 g z; return () : R Unit) = .error .ub ∧
    (do let (g, z) ← oneKey; let _ ← lookUpInVisitor false 1 1 g z; return () : R Unit) = .ok () ∧
    (do let (g, z) ← oneKey; let (out, z) ← insert 1 2 g 200 8 z; let (v, _) ← get 1 2 out.tree none 200 z; return v : R _) =
      .ok (some 8) := by
  refine ⟨?_, ?_, ?_, ?_, ?_, ?_, ?_, ?_, ?_, ?_, ?_⟩ <;> decide +kernel

end

end Hibit.Props
