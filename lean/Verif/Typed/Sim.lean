import Verif.Typed.Model
import Verif.ConstFor
/-!
# The typed SparseTree does what the inlined one does
-/
namespace Hibit.Typed
open Hibit Hibit.Sparse

/-- Two computations end in related results or in the same failure. -/
inductive Rel {A B : Type} (Q : A → B → Prop) : R A → R B → Prop
  | ok {a : A} {b : B} : Q a b → Rel Q (.ok a) (.ok b)
  | err {e : Err} : Rel Q (.error e) (.error e)

section
variable {A B A' B' : Type} {Q : A → B → Prop} {Q' : A' → B' → Prop}

theorem Rel.bind {x : R A} {y : R B} {f : A → R A'} {g : B → R B'} (h : Rel Q x y)
    (hf : ∀ a b, Q a b → Rel Q' (f a) (g b)) : Rel Q' (x >>= f) (y >>= g) := by
  cases h with
  | ok q => exact hf _ _ q
  | err => exact .err

theorem Rel.same {X : Type} {x : R X} {f : X → R A'} {g : X → R B'}
    (hf : ∀ a, x = .ok a → Rel Q' (f a) (g a)) : Rel Q' (x >>= f) (x >>= g) := by
  cases x with
  | ok a => exact hf a rfl
  | error e => exact .err

theorem Rel.ite {p : Prop} [Decidable p] {x x' : R A} {y y' : R B} (h1 : p → Rel Q x y)
    (h2 : ¬ p → Rel Q x' y') : Rel Q (if p then x else x') (if p then y else y') := by
  by_cases h : p
  · rw [if_pos h, if_pos h]; exact h1 h
  · rw [if_neg h, if_neg h]; exact h2 h

theorem Rel.refl {X : Type} {x : R X} : Rel Eq x x := by
  cases x with
  | ok a => exact .ok rfl
  | error e => exact .err

theorem Rel.eq {X : Type} {x y : R X} (h : Rel Eq x y) : y = x := by
  cases h with
  | ok q => rw [q]
  | err => rfl

theorem Rel.ok_inv {x : R A} {y : R B} {a : A} (h : Rel Q x y) (e : x = .ok a) :
    ∃ b, y = .ok b ∧ Q a b := by
  subst e
  cases h with
  | ok q => exact ⟨_, rfl, q⟩

end

/-! ## What the macro generates -/

theorem arms_eq {D : Nat} (h1 : 1 ≤ D) (h8 : D ≤ 8) : arms D = List.range D := by
  have : D = 1 ∨ D = 2 ∨ D = 3 ∨ D = 4 ∨ D = 5 ∨ D = 6 ∨ D = 7 ∨ D = 8 := by omega
  rcases this with rfl | rfl | rfl | rfl | rfl | rfl | rfl | rfl <;> rfl

theorem revArms_eq {D : Nat} (h1 : 1 ≤ D) (h8 : D ≤ 8) : revArms D = (List.range D).reverse := by
  have : D = 1 ∨ D = 2 ∨ D = 3 ∨ D = 4 ∨ D = 5 ∨ D = 6 ∨ D = 7 ∨ D = 8 := by omega
  rcases this with rfl | rfl | rfl | rfl | rfl | rfl | rfl | rfl <;> rfl

theorem levelTypes_eq {D : Nat} (h1 : 1 ≤ D) (h8 : D ≤ 8) :
    levelTypes D = (List.range D).map idxBits := by
  have : D = 1 ∨ D = 2 ∨ D = 3 ∨ D = 4 ∨ D = 5 ∨ D = 6 ∨ D = 7 ∨ D = 8 := by omega
  rcases this with rfl | rfl | rfl | rfl | rfl | rfl | rfl | rfl <;> rfl

theorem levelTypes_get {D n : Nat} (h1 : 1 ≤ D) (h8 : D ≤ 8) (hn : n < D) :
    (levelTypes D)[n]? = some (idxBits n) := by
  rw [levelTypes_eq h1 h8]
  simp [hn]

theorem matchArms_eq {β : Type} (i : Nat) (f : Nat → R β) : ∀ (js : List Nat),
    matchArms i f js = if i ∈ js then f i else .error .panic
  | [] => by simp [matchArms]
  | j :: js => by
    unfold matchArms
    by_cases h : i = j
    · subst h; simp
    · rw [if_neg h, matchArms_eq i f js]
      simp [h]

section
variable {lv : List Level} {gl : List GLevel}

theorem getP_none {β : Type} {l : List β} {i : Nat} (h : l.length ≤ i) : getP l i = .error .panic := by
  unfold getP
  rw [List.getElem?_eq_none h]

theorem visit_eq (h1 : 1 ≤ gl.length) (h8 : gl.length ≤ 8) {β : Type} (i : Nat)
    (f : Nat → GLevel → R β) : visit gl i f = (getP gl i >>= f i) := by
  unfold visit
  rw [matchArms_eq, arms_eq h1 h8]
  by_cases h : i < gl.length
  · rw [if_pos (List.mem_range.2 h)]
  · rw [if_neg (fun h' => h (List.mem_range.1 h')), getP_none (by omega)]; rfl

theorem visitMut_eq (h1 : 1 ≤ gl.length) (h8 : gl.length ≤ 8) {β : Type} (i : Nat)
    (f : Nat → GLevel → R (β × GLevel)) : visitMut gl i f =
      (getP gl i >>= fun L => f i L >>= fun x => .ok (x.1, gl.set i x.2)) := by
  unfold visitMut
  rw [matchArms_eq, arms_eq h1 h8]
  by_cases h : i < gl.length
  · rw [if_pos (List.mem_range.2 h)]; rfl
  · rw [if_neg (fun h' => h (List.mem_range.1 h')), getP_none (by omega)]; rfl

theorem visitType_eq {D : Nat} (h1 : 1 ≤ D) (h8 : D ≤ 8) {β : Type} {i : Nat} (hi : i < D)
    (f : Nat → R β) : visitType D i f = f (idxBits i) := by
  unfold visitType
  rw [matchArms_eq, arms_eq h1 h8, if_pos (List.mem_range.2 hi)]
  rw [getP_some (levelTypes_get h1 h8 hi)]
  rfl

/-- `fold_n` stops after `n` levels, or at the end, or at a `Break`. -/
theorem foldN_eq (h1 : 1 ≤ gl.length) (h8 : gl.length ≤ 8) {σ : Type} (n : Nat)
    (v : σ → Nat → GLevel → R (σ × Bool)) (s : σ) :
    foldN gl n v s = (visitList (fun s i => getP gl i >>= v s i) (List.range (min n gl.length)) s >>=
      fun r => .ok r.1) := by
  unfold foldN
  rw [arms_eq h1 h8]
  have key : ∀ (m a : Nat) (s : σ), a ≤ n → foldNArms gl n v (List.range' a m) s =
      (visitList (fun s i => getP gl i >>= v s i) (List.range' a (min (n - a) m)) s >>=
        fun r => .ok r.1) := by
    intro m
    induction m with
    | zero => intro a s _; simp [foldNArms, visitList]
    | succ m ih =>
      intro a s ha
      rw [List.range'_succ, foldNArms]
      by_cases h : a = n
      · rw [if_pos h]
        have : min (n - a) (m + 1) = 0 := by omega
        rw [this]; rfl
      · rw [if_neg h]
        have : min (n - a) (m + 1) = min (n - (a + 1)) m + 1 := by omega
        rw [this, List.range'_succ, visitList]
        simp only [bind_assoc_R]
        congr 1; funext L
        congr 1; funext ⟨s', b⟩
        cases b with
        | true => rfl
        | false => exact ih (a + 1) s' (by omega)
  rw [List.range_eq_range', key gl.length 0 s (Nat.zero_le _), List.range_eq_range', Nat.sub_zero]

/-- The two mutable folds visit the listed levels in order until a `Break`. -/
theorem foldMutArms_eq {σ : Type} (v : σ → Nat → GLevel → R ((σ × GLevel) × Bool)) :
    ∀ (js : List Nat) (s : σ) (gl : List GLevel), foldMutArms v js s gl =
      (visitList (fun (s : σ × List GLevel) i => getP s.2 i >>= fun L => v s.1 i L >>= fun r =>
        .ok ((r.1.1, s.2.set i r.1.2), r.2)) js (s, gl) >>= fun r => .ok r.1)
  | [], s, gl => rfl
  | j :: js, s, gl => by
    unfold foldMutArms visitList
    simp only [bind_assoc_R]
    congr 1; funext L
    congr 1; funext ⟨⟨s', L'⟩, b⟩
    cases b with
    | true => rfl
    | false => exact foldMutArms_eq v js s' (gl.set j L')

theorem foldMut_eq (h1 : 1 ≤ gl.length) (h8 : gl.length ≤ 8) {σ : Type}
    (v : σ → Nat → GLevel → R ((σ × GLevel) × Bool)) (s : σ) : foldMut gl v s =
      (visitList (fun (s : σ × List GLevel) i => getP s.2 i >>= fun L => v s.1 i L >>= fun r =>
        .ok ((r.1.1, s.2.set i r.1.2), r.2)) (List.range gl.length) (s, gl) >>= fun r => .ok r.1) := by
  unfold foldMut
  rw [arms_eq h1 h8, foldMutArms_eq]

theorem foldRevMut_eq (h1 : 1 ≤ gl.length) (h8 : gl.length ≤ 8) {σ : Type}
    (v : σ → Nat → GLevel → R ((σ × GLevel) × Bool)) (s : σ) : foldRevMut gl v s =
      (visitList (fun (s : σ × List GLevel) i => getP s.2 i >>= fun L => v s.1 i L >>= fun r =>
        .ok ((r.1.1, s.2.set i r.1.2), r.2)) (List.range gl.length).reverse (s, gl) >>=
        fun r => .ok r.1) := by
  unfold foldRevMut
  rw [revArms_eq h1 h8, foldMutArms_eq]

/-! ## Levels and pointers -/

/-- The typed levels are the inlined levels, and there are `D` of them. -/
structure LR (D : Nat) (lv : List Level) (gl : List GLevel) : Prop where
  eq : lv = gl.map (·.level)
  len : gl.length = D

theorem LR.get {D : Nat} (h : LR D lv gl) (n : Nat) :
    Rel (fun L G => L = G.level ∧ gl[n]? = some G) (getP lv n) (getP gl n) := by
  unfold getP
  rw [h.eq, List.getElem?_map]
  cases hg : gl[n]? with
  | none => exact .err
  | some G => exact .ok ⟨rfl, rfl⟩

theorem LR.set {D : Nat} (h : LR D lv gl) (n : Nat) (G : GLevel) :
    LR D (lv.set n G.level) (gl.set n G) :=
  ⟨by rw [h.eq, List.map_set], by rw [List.length_set]; exact h.len⟩

/-- `p` is a valid pointer to the block `b` at position `pos` of level `n`, of that level's type. -/
structure Points (gl : List GLevel) (n pos : Nat) (b : Block) (p : BPtr) : Prop where
  at_ : ∃ G, gl[n]? = some G ∧ p = ⟨n, G.gen, pos⟩ ∧ G.level.blocks[pos]? = some b

section
variable {D : Nat} (h1 : 1 ≤ D) (h8 : D ≤ 8)
include h1 h8

theorem getBlock_bind (h : LR D lv gl) {n pos : Nat} {A B : Type} {Q : A → B → Prop}
    {f : Level → Block → R A} {g : BPtr → R B}
    (hf : ∀ G b, gl[n]? = some G → Points gl n pos b ⟨n, G.gen, pos⟩ →
      G.level.blocks[pos]? = some b → Rel Q (f G.level b) (g ⟨n, G.gen, pos⟩)) :
    Rel Q (getP lv n >>= fun L => getU L.blocks pos >>= fun b => f L b) (getBlock gl n pos >>= g) := by
  unfold getBlock
  rw [visit_eq (by rw [h.len]; exact h1) (by rw [h.len]; exact h8), bind_assoc_R]
  refine Rel.bind (h.get n) fun L G ⟨e, hG⟩ => ?_
  subst e
  rw [bind_assoc_R]
  refine Rel.same fun b hb => ?_
  have hb := getU_inv hb
  exact hf G b hG ⟨G, hG, rfl, hb⟩ hb

theorem Points.read (h : LR D lv gl) {n pos : Nat} {b : Block} {p : BPtr} (hp : Points gl n pos b p) :
    n < D ∧ p.level = n ∧ readAs gl p (idxBits n) = .ok b := by
  obtain ⟨G, hG, rfl, hb⟩ := hp.at_
  have hn : n < D := by
    rw [← h.len]
    exact (List.getElem?_eq_some_iff.1 hG).1
  refine ⟨hn, rfl, ?_⟩
  unfold readAs
  simp only [hG, h.len, levelTypes_get h1 h8 hn, and_self, if_true]
  exact getU_some hb

theorem Points.child (h : LR D lv gl) {n pos : Nat} {b : Block} {p : BPtr} (hp : Points gl n pos b p)
    (i : Nat) : p.getChild gl n i = b.getOrZero i := by
  obtain ⟨hn, -, e⟩ := hp.read h1 h8 h
  unfold BPtr.getChild
  rw [h.len, visitType_eq h1 h8 hn, e]
  rfl

theorem Points.mask (h : LR D lv gl) {n pos : Nat} {b : Block} {p : BPtr} (hp : Points gl n pos b p) :
    p.getMask gl n = .ok b.mask := by
  obtain ⟨hn, -, e⟩ := hp.read h1 h8 h
  unfold BPtr.getMask
  rw [h.len, visitType_eq h1 h8 hn, e]
  rfl

theorem Points.insert (h : LR D lv gl) {n pos : Nat} {b : Block} {p : BPtr} (hp : Points gl n pos b p)
    (i item : Nat) {G : GLevel} (hG : gl[n]? = some G) :
    Rel (fun b' gl' => LR D (lv.set n { G.level with blocks := G.level.blocks.set pos b' }) gl')
      (b.insert n i item) (p.insertChild gl n i item) := by
  obtain ⟨hn, hl, e⟩ := hp.read h1 h8 h
  obtain ⟨G', hG', rfl, hb⟩ := hp.at_
  rw [hG] at hG'; cases hG'
  unfold BPtr.insertChild
  rw [h.len, visitType_eq h1 h8 hn, e]
  simp only [bind_ok]
  have e2 : insertTy b (idxBits n) i item = b.insert n i item := rfl
  rw [e2]
  cases b.insert n i item with
  | error _ => exact .err
  | ok b' =>
    simp only [bind_ok]
    unfold writeAs
    simp only [hG, h.len, levelTypes_get h1 h8 hn, and_self, if_true]
    rw [setU_ok _ ((List.getElem?_eq_some_iff.1 hb).1)]
    exact .ok (h.set n ⟨{ G.level with blocks := G.level.blocks.set pos b' }, G.gen⟩)

/-! ## The functions of the tree -/

omit h1 h8 in
theorem insertEmpty_rel (N : Nat) (G : GLevel) :
    Rel (fun (x : Nat × Level) y => x.1 = y.1 ∧ x.2 = y.2.level) (G.level.insertEmpty N) (G.insertEmpty N) := by
  unfold GLevel.insertEmpty
  cases G.level.insertEmpty N with
  | error _ => exact .err
  | ok x => exact .ok ⟨rfl, rfl⟩

/-- The states of the insertion loop correspond. -/
def StR (D : Nat) (x : List Level × Nat) (y : List GLevel × Nat) : Prop := LR D x.1 y.1 ∧ x.2 = y.2

theorem insertStep_rel (N : Nat) (li : List Nat) {x : List Level × Nat} {y : List GLevel × Nat}
    (h : StR D x y) (n : Nat) :
    Rel (fun a b => StR D a.1 b.1 ∧ a.2 = b.2) (Sparse.insertStep N li x n) (insertStep N li y n) := by
  obtain ⟨lv, bi⟩ := x
  obtain ⟨gl, bi'⟩ := y
  obtain ⟨h, e⟩ := h
  simp only at h e
  subst e
  unfold insertStep Sparse.insertStep
  refine Rel.same fun inner _ => ?_
  refine getBlock_bind h1 h8 h fun G b hG hp hb => ?_
  rw [hp.child h1 h8 h]
  refine Rel.same fun next _ => ?_
  refine Rel.ite (fun _ => ?_) fun _ => .ok ⟨⟨h, rfl⟩, rfl⟩
  rw [visitMut_eq (by rw [h.len]; exact h1) (by rw [h.len]; exact h8), bind_assoc_R]
  refine Rel.bind (h.get (n + 1)) fun L1 G1 ⟨e, hG1⟩ => ?_
  subst e
  rw [bind_assoc_R]
  refine Rel.bind (insertEmpty_rel N G1) fun a c ⟨e1, e2⟩ => ?_
  obtain ⟨new, L1'⟩ := a
  obtain ⟨new', G1'⟩ := c
  simp only at e1 e2
  subst e1 e2
  simp only [bind_ok]
  refine getBlock_bind h1 h8 (h.set (n + 1) G1') fun G2 b2 hG2 hp2 hb2 => ?_
  refine Rel.bind (hp2.insert h1 h8 (h.set (n + 1) G1') inner new hG2) fun b' gl' h' => ?_
  rw [setU_ok _ ((List.getElem?_eq_some_iff.1 hb2).1)]
  exact .ok ⟨⟨h', rfl⟩, rfl⟩

omit h1 h8 in
theorem visitList_rel {σ τ : Type} {P : σ → τ → Prop} {v : σ → Nat → R (σ × Bool)}
    {w : τ → Nat → R (τ × Bool)}
    (hv : ∀ s t n, P s t → Rel (fun a b => P a.1 b.1 ∧ a.2 = b.2) (v s n) (w t n)) :
    ∀ (l : List Nat) (s : σ) (t : τ), P s t →
      Rel (fun a b => P a.1 b.1 ∧ a.2 = b.2) (visitList v l s) (visitList w l t)
  | [], s, t, h => .ok ⟨h, rfl⟩
  | n :: l, s, t, h => by
    unfold visitList
    refine Rel.bind (hv s t n h) fun a b ⟨h', e⟩ => ?_
    obtain ⟨s', ba⟩ := a
    obtain ⟨t', bb⟩ := b
    simp only at e h'
    subst e
    exact Rel.ite (fun _ => .ok ⟨h', rfl⟩) fun _ => visitList_rel hv l s' t' h'

/-- The trees correspond. -/
structure TR {α : Type} (D : Nat) (t : ST α) (g : GT α) : Prop where
  levels : LR D t.levels g.levels
  values : g.values = t.values
  keys : g.keys = t.keys
  last : g.last = t.last

/-- The results of an insertion correspond. -/
structure OutR {α : Type} (D : Nat) (o : Sparse.InsOut α) (o' : InsOut α) : Prop where
  tree : TR D o.tree o'.tree
  dataIndex : o'.dataIndex = o.dataIndex
  dropped : o'.dropped = o.dropped
  called : o'.called = o.called

variable {α : Type}

theorem getOrInsertImpl_rel (N : Nat) {t : ST α} {g : GT α} (T : TR D t g) (index : Nat) (ins : Bool)
    (value : α) : Rel (OutR D) (Sparse.getOrInsertImpl N D t index ins value)
      (getOrInsertImpl N D g index ins value) := by
  unfold getOrInsertImpl Sparse.getOrInsertImpl
  rw [T.values, T.keys, T.last]
  refine Rel.same fun li _ => Rel.same fun inner _ => ?_
  rw [constLoop_eq _ _ _ _ (by omega) (by omega), constLoop_eq _ _ _ _ (by omega) (by omega)]
  refine Rel.bind (visitList_rel (P := StR D) (fun s t n h => insertStep_rel h1 h8 N li h n) _ (t.levels, 0) (g.levels, 0)
    ⟨T.levels, rfl⟩) fun a b ⟨⟨h, e⟩, _⟩ => ?_
  obtain ⟨⟨lv, bi⟩, _⟩ := a
  obtain ⟨⟨gl, bi'⟩, _⟩ := b
  simp only at h e
  subst e
  simp only
  refine getBlock_bind h1 h8 h fun G b hG hp hb => ?_
  rw [hp.child h1 h8 h]
  refine Rel.same fun di _ => ?_
  refine Rel.ite (fun _ => ?_) fun _ => ?_
  · refine Rel.bind (hp.insert h1 h8 h inner t.values.length hG) fun b' gl' h' => ?_
    rw [setU_ok _ ((List.getElem?_eq_some_iff.1 hb).1)]
    exact .ok ⟨⟨h', rfl, rfl, rfl⟩, rfl, rfl, rfl⟩
  · refine Rel.same fun old _ => Rel.same fun old _ => ?_
    refine Rel.ite (fun _ => Rel.same fun vs _ => ?_) fun _ => ?_
    · exact .ok ⟨⟨h, rfl, rfl, rfl⟩, rfl, rfl, rfl⟩
    · exact .ok ⟨⟨h, rfl, rfl, rfl⟩, rfl, rfl, rfl⟩

/-- The visitor of `fetch_block_indices`. -/
def fetchV (li : List Nat) (s : List Nat × Nat) (i : Nat) (L : GLevel) : R ((List Nat × Nat) × Bool) := do
  let block ← getU L.level.blocks s.2
  let inBlock ← getU li i
  let bi ← block.getOrZero inBlock
  let out ← setU s.1 i bi
  return ((out, bi), false)

omit h1 h8 in
theorem fetch_loop (li : List Nat) (gl : List GLevel) : ∀ (m k : Nat) (out : List Nat) (acc : Nat),
    k + m = gl.length → out.length = gl.length →
    Rel (fun a b => b = ((out.take k ++ a.1, a.2), false))
      (fetchFrom li k acc ((gl.drop k).map (·.level)))
      (visitList (fun s i => getP gl i >>= fetchV li s i) (List.range' k m) (out, acc))
  | 0, k, out, acc, hk, ho => by
    have : gl.drop k = [] := List.drop_eq_nil_of_le (by omega)
    rw [this]
    refine .ok ?_
    simp only [List.append_nil]
    rw [List.take_of_length_le (by omega)]
  | m + 1, k, out, acc, hk, ho => by
    have hlt : k < gl.length := by omega
    rw [List.drop_eq_getElem_cons hlt, List.map_cons, fetchFrom, List.range'_succ, visitList,
      getP_some (List.getElem?_eq_getElem hlt)]
    simp only [bind_ok]
    unfold fetchV
    simp only [bind_assoc_R]
    refine Rel.same fun block _ => Rel.same fun inb _ => Rel.same fun bi _ => ?_
    rw [setU_ok _ (by omega)]
    simp only [bind_ok, pure_eq_ok]
    have ih := fetch_loop li gl m (k + 1) (out.set k bi) bi (by omega) (by simpa using ho)
    change Rel _ (fetchFrom li (k + 1) bi ((gl.drop (k + 1)).map (·.level)) >>= _)
      (visitList (fun s i => getP gl i >>= fetchV li s i) (List.range' (k + 1) m) (out.set k bi, bi))
    have e : ∀ y : R ((List Nat × Nat) × Bool), y = (y >>= fun r => .ok r) := by
      intro y; cases y <;> rfl
    rw [e (visitList _ _ _)]
    refine Rel.bind ih fun a b hab => .ok ?_
    rw [hab]
    obtain ⟨as, r⟩ := a
    simp only [Prod.mk.injEq, and_true]
    rw [List.take_add_one]
    have : (out.set k bi)[k]? = some bi := by
      rw [List.getElem?_set_self (by omega)]
    rw [this, List.take_set_of_le (by omega)]
    simp

theorem fetch_rel {t : ST α} {g : GT α} (T : TR D t g) (li : List Nat) :
    Typed.fetchBlockIndices g.levels li = Sparse.fetchBlockIndices t li := by
  have h1' : 1 ≤ g.levels.length := by rw [T.levels.len]; exact h1
  have h8' : g.levels.length ≤ 8 := by rw [T.levels.len]; exact h8
  show fold g.levels (fetchV li) (List.replicate g.levels.length 0, 0) = _
  unfold fold
  rw [foldN_eq h1' h8', Nat.min_self, List.range_eq_range']
  unfold Sparse.fetchBlockIndices
  rw [T.levels.eq]
  have h := fetch_loop li g.levels g.levels.length 0 (List.replicate g.levels.length 0) 0 (by omega) (by simp)
  rw [List.drop_zero] at h
  have e : fetchFrom li 0 0 (g.levels.map (·.level)) =
      (fetchFrom li 0 0 (g.levels.map (·.level)) >>= fun r => .ok r) := by
    cases fetchFrom li 0 0 (g.levels.map (·.level)) <;> rfl
  rw [e]
  refine Rel.eq (Rel.bind h fun a b hab => ?_)
  rw [hab]
  exact .ok (by simp)

theorem fetchIndex_rel {t : ST α} {g : GT α} (T : TR D t g) (li : List Nat) :
    Typed.fetchBlockIndex g li = Sparse.fetchBlockIndex t li := by
  unfold fetchBlockIndex Sparse.fetchBlockIndex
  rw [fetch_rel h1 h8 T]

omit h1 h8 in
theorem removeVisit_rel (li lbi : List Nat) (n : Nat) (lv : List Level) (gl : List GLevel) (G : GLevel)
    {A : Type} {B : Type} {Q : A → B → Prop} {f : Level → Bool → R A} {g : (Unit × GLevel) × Bool → R B}
    (hf : ∀ L b, Rel Q (f L b) (g (((), ⟨L, G.gen⟩), b))) :
    Rel Q (do
      let bi ← if n = 0 then pure 0 else getP lbi (n - 1)
      let b ← getU G.level.blocks bi
      let inner ← getP li n
      let b ← b.remove inner
      let blocks ← setU G.level.blocks bi b
      let L := { G.level with blocks := blocks }
      if b.isEmpty then
        let L ← if n ≠ 0 then L.removeEmpty bi else pure L
        f L false
      else f L true) (removeVisit li lbi n G >>= g) := by
  unfold removeVisit
  by_cases hn : n = 0
  · subst hn
    simp only [if_true, ne_eq, not_true_eq_false, if_false, pure_eq_ok, bind_ok, bind_assoc_R]
    refine Rel.same fun b _ => Rel.same fun inner _ => Rel.same fun b' _ => Rel.same fun blocks _ => ?_
    by_cases hb : b'.isEmpty = true
    · simp only [hb, if_true, bind_ok]; exact hf _ _
    · simp only [hb, if_false, bind_ok]; exact hf _ _
  · simp only [ne_eq, hn, not_false_eq_true, if_true, if_false, pure_eq_ok, bind_assoc_R]
    refine Rel.same fun bi _ => Rel.same fun b _ => Rel.same fun inner _ => Rel.same fun b' _ =>
      Rel.same fun blocks _ => ?_
    by_cases hb : b'.isEmpty = true
    · simp only [hb, if_true, bind_assoc_R, bind_ok]
      exact Rel.same fun L _ => hf _ _
    · simp only [hb, if_false, bind_ok]; exact hf _ _

omit h1 h8 in
theorem remove_loop (li lbi : List Nat) : ∀ (n : Nat) (lv : List Level) (gl : List GLevel), LR D lv gl →
    Rel (fun a b => LR D a b.1.2) (removeLoop li lbi n lv)
      (visitList (fun (s : Unit × List GLevel) i => getP s.2 i >>= fun L => removeVisit li lbi i L >>= fun r =>
        .ok ((r.1.1, s.2.set i r.1.2), r.2)) (List.range n).reverse ((), gl))
  | 0, lv, gl, h => .ok h
  | n + 1, lv, gl, h => by
    rw [List.range_succ, List.reverse_append, List.reverse_singleton, List.singleton_append, visitList, removeLoop]
    simp only [bind_assoc_R]
    refine Rel.bind (h.get n) fun L G ⟨e, hG⟩ => ?_
    subst e
    refine removeVisit_rel li lbi n lv gl G (f := fun L b => if b then .ok (lv.set n L)
      else removeLoop li lbi n (lv.set n L)) fun L b => ?_
    simp only [bind_ok]
    cases b with
    | true => exact .ok (h.set n ⟨L, G.gen⟩)
    | false => exact remove_loop li lbi n _ _ (h.set n ⟨L, G.gen⟩)

theorem moveLast_rel {t : ST α} {g : GT α} (T : TR D t g) (di : Nat) :
    Rel (TR D) (Sparse.moveLast D t di) (moveLast D g di) := by
  unfold moveLast Sparse.moveLast
  rw [T.last]
  refine Rel.same fun last _ => ?_
  simp only
  refine Rel.ite (fun _ => ?_) fun _ => .ok ⟨T.levels, T.values, T.keys, rfl⟩
  refine Rel.same fun rest _ => ?_
  rw [visitMut_eq (by rw [T.levels.len]; exact h1) (by rw [T.levels.len]; exact h8), bind_assoc_R]
  refine Rel.bind (T.levels.get (D - 1)) fun L G ⟨e, hG⟩ => ?_
  subst e
  simp only [bind_assoc_R]
  refine Rel.same fun b _ => ?_
  rw [getP_some (levelTypes_get h1 h8 (show D - 1 < D by omega))]
  simp only [bind_ok]
  have e2 : setTy b (idxBits (D - 1)) last.2 di = b.set (D - 1) last.2 di := rfl
  rw [e2]
  refine Rel.same fun b' _ => Rel.same fun blocks _ => ?_
  exact .ok ⟨T.levels.set (D - 1) ⟨{ G.level with blocks := blocks }, G.gen⟩, T.values, T.keys, rfl⟩

theorem remove_rel (N : Nat) {t : ST α} {g : GT α} (T : TR D t g) (k : Nat) :
    Rel (fun a b => TR D a.1 b.1 ∧ b.2 = a.2) (Sparse.remove N D t k) (remove N D g k) := by
  unfold remove Sparse.remove
  refine Rel.same fun index _ => Rel.same fun li _ => ?_
  rw [fetch_rel h1 h8 T]
  refine Rel.same fun x _ => ?_
  obtain ⟨lbi, di⟩ := x
  simp only
  refine Rel.ite (fun _ => .ok ⟨T, rfl⟩) fun _ => ?_
  rw [foldRevMut_eq (by rw [T.levels.len]; exact h1) (by rw [T.levels.len]; exact h8), bind_assoc_R,
    T.levels.len]
  refine Rel.bind (remove_loop li lbi D t.levels g.levels T.levels) fun lv r h => ?_
  simp only [bind_ok]
  refine Rel.bind (moveLast_rel h1 h8 (t := { t with levels := lv }) (g := { g with levels := r.1.2 })
    ⟨h, T.values, T.keys, T.last⟩ di) fun t' g' T' => ?_
  rw [T'.keys, T'.values]
  refine Rel.same fun _ _ => Rel.same fun _ _ => Rel.same fun _ _ => ?_
  exact .ok ⟨⟨T'.levels, rfl, rfl, T'.last⟩, rfl⟩

end
end

end Hibit.Typed
