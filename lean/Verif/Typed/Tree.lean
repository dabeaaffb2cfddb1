import Verif.Typed.Sim
/-!
# Cursors and histories of the typed SparseTree
-/
namespace Hibit.Typed
open Hibit Hibit.Sparse

variable {α : Type} {D : Nat} {t : ST α} {g : GT α}

/-- A stored pointer of level `i + 1` is null when the inlined cursor has none, and otherwise points into the
current buffer of that level. -/
def PtrR (g : GT α) (i : Nat) : Option Nat → Option BPtr → Prop
  | none, q => q = none
  | some pos, q => ∃ G, g.levels[i + 1]? = some G ∧ q = some ⟨i + 1, G.gen, pos⟩

/-- The cursors correspond. -/
structure CurR (g : GT α) (c : Sparse.Cursor) (c' : Cursor) : Prop where
  len : c'.length = c.length
  get : ∀ (i : Nat) (o : Option Nat), c[i]? = some o → ∃ q, c'[i]? = some q ∧ PtrR g i o q

theorem CurR.new (n : Nat) : CurR g (List.replicate n none) (List.replicate n none) := by
  refine ⟨by simp, fun i o e => ⟨none, ?_, ?_⟩⟩
  · rw [List.getElem?_replicate] at e ⊢
    split at e
    · rw [if_pos ‹_›]
    · cases e
  · rw [List.getElem?_replicate] at e
    split at e <;> cases e
    rfl

theorem CurR.set {c : Sparse.Cursor} {c' : Cursor} (K : CurR g c c') {i pos : Nat} {G : GLevel}
    (hG : g.levels[i + 1]? = some G) :
    Rel (CurR g) (setU c i (some pos)) (setU c' i (some ⟨i + 1, G.gen, pos⟩)) := by
  unfold setU
  rw [K.len]
  refine Rel.ite (fun hi => ?_) fun _ => .err
  refine .ok ⟨by simp [K.len], fun j o e => ?_⟩
  rw [List.getElem?_set] at e ⊢
  rw [K.len]
  by_cases hij : i = j
  · rw [if_pos hij, if_pos hi] at e
    rw [if_pos hij, if_pos hi]
    cases e
    subst hij
    exact ⟨_, rfl, G, hG, rfl⟩
  · rw [if_neg hij] at e ⊢
    exact K.get j o e

/-- What reading a stored pointer gives. -/
def PosR (g : GT α) (n : Nat) (pos : Nat) (p : BPtr) : Prop :=
  ∃ G, g.levels[n]? = some G ∧ p = ⟨n, G.gen, pos⟩

theorem unwrap_rel {i n : Nat} (hn : n = i + 1) {o : Option Nat} {q : Option BPtr} (h : PtrR g i o q) :
    Rel (PosR g n) (unwrapU o) (unwrapU q) := by
  subst hn
  cases o with
  | none => cases h; exact .err
  | some pos =>
    obtain ⟨G, hG, rfl⟩ := h
    exact .ok ⟨G, hG, rfl⟩

theorem CurR.read {c : Sparse.Cursor} {c' : Cursor} (K : CurR g c c') (i : Nat) :
    Rel (PosR g (i + 1)) (do let o ← getU c i; unwrapU o) (do let o ← getU c' i; unwrapU o) := by
  unfold getU
  cases hc : c[i]? with
  | none =>
    rw [List.getElem?_eq_none (l := c') (by
      rw [K.len]; exact List.getElem?_eq_none_iff.1 hc)]
    exact .err
  | some o =>
    obtain ⟨q, e, h⟩ := K.get i o hc
    rw [e]
    exact unwrap_rel rfl h

theorem CurR.last {c : Sparse.Cursor} {c' : Cursor} (K : CurR g c c') (hl : c.length = D - 1) (hD : D ≠ 1)
    (h1 : 1 ≤ D) : Rel (PosR g (D - 1)) (do let o ← unwrapU c.getLast?; unwrapU o)
      (do let o ← unwrapU c'.getLast?; unwrapU o) := by
  simp only [List.getLast?_eq_getElem?, K.len, hl]
  cases hc : c[D - 1 - 1]? with
  | none =>
    have := List.getElem?_eq_none_iff.1 hc
    omega
  | some o =>
    obtain ⟨q, e, h⟩ := K.get _ o hc
    rw [e]
    exact unwrap_rel (by omega) h

section
variable (h1 : 1 ≤ D) (h8 : D ≤ 8)
include h1 h8

theorem treeData_rel (T : TR D t g) (li : List Nat) : treeData g li = Sparse.treeData t li := by
  unfold treeData Sparse.treeData
  rw [fetchIndex_rel h1 h8 T, T.values]

theorem getBlock_pos (T : TR D t g) (n pos : Nat) :
    Rel (fun (_ : Unit) p => PosR g n pos p)
      (getP t.levels n >>= fun L => getU L.blocks pos >>= fun _ => .ok ()) (getBlock g.levels n pos) := by
  have e : getBlock g.levels n pos = (getBlock g.levels n pos >>= fun p => .ok p) := by
    cases getBlock g.levels n pos <;> rfl
  rw [e]
  exact getBlock_bind h1 h8 T.levels fun G b hG _ _ => .ok ⟨G, hG, rfl⟩

/-- Following a pointer of the right level. -/
theorem child_pos (T : TR D t g) {n pos : Nat} {p : BPtr} (h : PosR g n pos p) (i : Nat) :
    p.getChild g.levels n i =
      (getP t.levels n >>= fun L => getU L.blocks pos >>= fun b => b.getOrZero i) := by
  obtain ⟨G, hG, rfl⟩ := h
  have hlen := T.levels.len
  have hn : n < D := by rw [← hlen]; exact (List.getElem?_eq_some_iff.1 hG).1
  unfold BPtr.getChild
  rw [hlen, visitType_eq h1 h8 hn]
  unfold readAs
  simp only [hG, hlen, levelTypes_get h1 h8 hn, and_self, if_true]
  have : t.levels[n]? = some G.level := by rw [T.levels.eq, List.getElem?_map, hG]; rfl
  rw [getP_some this]
  rfl

theorem prevChild_rel (T : TR D t g) {c : Sparse.Cursor} {c' : Cursor} (K : CurR g c c') {n : Nat}
    (hn : n ≠ 0) (i : Nat) :
    ((if n = 1 then getBlock g.levels 0 0 else do
        let o ← getU c' (n - 1 - 1)
        unwrapU o) >>= fun p => p.getChild g.levels (n - 1) i) =
    (prevBlock c n >>= fun prev => getP t.levels (n - 1) >>= fun Lp => getU Lp.blocks prev >>= fun bp =>
      bp.getOrZero i) := by
  unfold prevBlock
  by_cases h : n = 1
  · subst h
    simp only [if_true, bind_ok, Nat.sub_self]
    symm
    refine (Rel.eq ?_).symm
    exact getBlock_bind h1 h8 T.levels fun G b hG hp hb => by
      rw [hp.child h1 h8 T.levels]; exact Rel.refl
  · simp only [if_neg h]
    refine Rel.eq (Rel.bind (K.read (n - 1 - 1)) fun pos p hp => ?_)
    have e : n - 1 - 1 + 1 = n - 1 := by omega
    rw [e] at hp
    rw [child_pos h1 h8 T hp]
    exact Rel.refl

/-- The results of a selection correspond. -/
def SelR (g : GT α) (x : Mask × Sparse.Cursor) (y : Mask × Cursor) : Prop := x.1 = y.1 ∧ CurR g x.2 y.2

theorem curSelect_rel (T : TR D t g) {c : Sparse.Cursor} {c' : Cursor} (K : CurR g c c') (n i : Nat) :
    Rel (SelR g) (Sparse.curSelect c t n i) (curSelect c' g n i) := by
  unfold Sparse.curSelect curSelect
  by_cases hn : n = 0
  · subst hn
    simp only [if_true]
    refine Rel.ite (fun _ => .err) fun _ => ?_
    refine getBlock_bind h1 h8 T.levels fun G b hG hp hb => ?_
    rw [hp.mask h1 h8 T.levels]
    exact .ok ⟨rfl, K⟩
  · simp only [if_neg hn]
    have e := prevChild_rel h1 h8 T K hn i
    have a1 : ∀ f : Nat → R (Mask × Sparse.Cursor),
        (prevBlock c n >>= fun prev => getP t.levels (n - 1) >>= fun Lp => getU Lp.blocks prev >>= fun bp =>
          bp.getOrZero i >>= f) = ((prevBlock c n >>= fun prev => getP t.levels (n - 1) >>= fun Lp =>
            getU Lp.blocks prev >>= fun bp => bp.getOrZero i) >>= f) := by
      intro f; simp only [bind_assoc_R]
    have a2 : ∀ (x : R BPtr) (f : Nat → R (Mask × Cursor)),
        (x >>= fun p => p.getChild g.levels (n - 1) i >>= f) =
          ((x >>= fun p => p.getChild g.levels (n - 1) i) >>= f) := by
      intro x f; rw [bind_assoc_R]
    rw [a1, a2, e]
    refine Rel.same fun bi _ => ?_
    refine getBlock_bind h1 h8 T.levels fun G b hG hp hb => ?_
    have hs := K.set (i := n - 1) (pos := bi) (G := G) (by rw [show n - 1 + 1 = n by omega]; exact hG)
    rw [show n - 1 + 1 = n by omega] at hs
    refine Rel.bind hs fun c1 c1' K1 => ?_
    rw [hp.mask h1 h8 T.levels]
    exact .ok ⟨rfl, K1⟩

theorem curData_rel (T : TR D t g) {c : Sparse.Cursor} {c' : Cursor} (K : CurR g c c')
    (hl : c.length = D - 1) (i : Nat) : curData D c' g i = Sparse.curData D c t i := by
  unfold curData Sparse.curData curBlock
  rw [T.values]
  by_cases hD : D = 1
  · subst hD
    simp only [if_true, bind_ok, Nat.sub_self]
    refine Rel.eq (getBlock_bind h1 h8 T.levels fun G b hG hp hb => ?_)
    rw [hp.child h1 h8 T.levels]
    exact Rel.refl
  · simp only [if_neg hD]
    refine Rel.eq (Rel.bind (K.last hl hD h1) fun pos p hp => ?_)
    rw [child_pos h1 h8 T hp]
    simp only [bind_assoc_R]
    exact Rel.refl

end

/-! ## The contract -/

/-- The relation of typed cursors to positions that a relation of inlined cursors induces. -/
def gCur (g : GT α) (D : Nat) (K : CursorRel Sparse.Cursor) : CursorRel Cursor where
  inv := fun c' => ∃ c, CurR g c c' ∧ c.length = D - 1 ∧ K.inv c
  pos := fun c' p => ∃ c, CurR g c c' ∧ c.length = D - 1 ∧ K.pos c p
  posC := fun c' p => ∃ c, CurR g c c' ∧ c.length = D - 1 ∧ K.posC c p

theorem curSelect_len {c c1 : Sparse.Cursor} {n i : Nat} {m : Mask}
    (e : Sparse.curSelect c t n i = .ok (m, c1)) : c1.length = c.length := by
  unfold Sparse.curSelect at e
  by_cases hn : n = 0
  · simp only [if_pos hn] at e
    split at e
    · cases e
    · obtain ⟨_, -, e⟩ := bind_inv e
      obtain ⟨_, -, e⟩ := bind_inv e
      cases e; rfl
  · simp only [if_neg hn] at e
    obtain ⟨_, -, e⟩ := bind_inv e
    obtain ⟨_, -, e⟩ := bind_inv e
    obtain ⟨_, -, e⟩ := bind_inv e
    obtain ⟨_, -, e⟩ := bind_inv e
    obtain ⟨_, -, e⟩ := bind_inv e
    obtain ⟨_, -, e⟩ := bind_inv e
    obtain ⟨c2, es, e⟩ := bind_inv e
    cases e
    rw [(setU_inv es).1, List.length_set]

theorem lawfulC_typed {N : Nat} (h1 : 1 ≤ D) (h8 : D ≤ 8) (T : TR D t g) {TS : TreeSpec α}
    {K : CursorRel Sparse.Cursor} (L : LawfulC (Sparse.impl α N D) t TS K) :
    LawfulC (impl α N D) g TS (gCur g D K) where
  cfg := L.cfg
  wf := L.wf
  data_eq := fun p a b => (treeData_rel h1 h8 T _).trans (L.data_eq p a b)
  dataU_eq := fun p d a b c => by
    show (treeData g p >>= fun d => unwrapU d) = _
    rw [treeData_rel h1 h8 T]
    exact L.dataU_eq p d a b c
  new_ok := by
    obtain ⟨c, e, hc⟩ := L.new_ok
    cases e
    exact ⟨_, rfl, _, CurR.new _, by simp, hc⟩
  pos_inv := fun c' p ⟨c, K1, hl, h⟩ => ⟨c, K1, hl, L.pos_inv c p h⟩
  posC_pos := fun c' p ⟨c, K1, hl, h⟩ => ⟨c, K1, hl, L.posC_pos c p h⟩
  pos_take := fun c' p n ⟨c, K1, hl, h⟩ => ⟨c, K1, hl, L.pos_take c p n h⟩
  select_root := fun c' i a b => by
    obtain ⟨c, K1, hl, a⟩ := a
    obtain ⟨m, c1, e, r⟩ := L.select_root c i a b
    obtain ⟨⟨m', c1'⟩, e', q1, q2⟩ := (curSelect_rel h1 h8 T K1 0 i).ok_inv e
    simp only at q1
    subst q1
    exact ⟨m, c1', e', r.1, r.2.1, c1, q2, (curSelect_len (show Sparse.curSelect c t 0 i = .ok (m, c1) from e)).trans hl, r.2.2⟩
  selectU_root := fun c' i a b => by
    obtain ⟨c, K1, hl, a⟩ := a
    obtain ⟨m, c1, e, r⟩ := L.selectU_root c i a b
    obtain ⟨⟨m', c1'⟩, e', q1, q2⟩ := (curSelect_rel h1 h8 T K1 0 i).ok_inv e
    simp only at q1
    subst q1
    exact ⟨m, c1', e', r.1, r.2.1, c1, q2, (curSelect_len (show Sparse.curSelect c t 0 i = .ok (m, c1) from e)).trans hl, r.2.2⟩
  select_node := fun c' p i a b d f => by
    obtain ⟨c, K1, hl, a⟩ := a
    obtain ⟨m, c1, e, r⟩ := L.select_node c p i a b d f
    obtain ⟨⟨m', c1'⟩, e', q1, q2⟩ := (curSelect_rel h1 h8 T K1 (p.length + 1) i).ok_inv e
    simp only at q1
    subst q1
    exact ⟨m, c1', e', r.1, r.2.1, c1, q2, (curSelect_len (show Sparse.curSelect c t (p.length + 1) i = .ok (m, c1) from e)).trans hl, r.2.2⟩
  selectU_node := fun c' p i a b d f k => by
    obtain ⟨c, K1, hl, a⟩ := a
    obtain ⟨m, c1, e, r⟩ := L.selectU_node c p i a b d f k
    obtain ⟨⟨m', c1'⟩, e', q1, q2⟩ := (curSelect_rel h1 h8 T K1 (p.length + 1) i).ok_inv e
    simp only at q1
    subst q1
    exact ⟨m, c1', e', r.1, r.2.1, c1, q2, (curSelect_len (show Sparse.curSelect c t (p.length + 1) i = .ok (m, c1) from e)).trans hl, r.2.2⟩
  curDataU_eq := fun c' p i d a b e f k => by
    obtain ⟨c, K1, hl, a⟩ := a
    show (curData D c' g i >>= fun d => unwrapU d) = _
    rw [curData_rel h1 h8 T K1 hl]
    exact L.curDataU_eq c p i d a b e f k
  curData_eq := fun c' p i a b e f => by
    obtain ⟨c, K1, hl, a⟩ := a
    exact (curData_rel h1 h8 T K1 hl i).trans (L.curData_eq c p i a b e f)

/-! ## Histories -/

theorem default_tr (N : Nat) (dflt : Option α) : TR D (Sparse.default α N D dflt) (default α N D dflt) where
  levels := ⟨by simp [Sparse.default, default], by simp [default]⟩
  values := rfl
  keys := rfl
  last := rfl

theorem writeRef_rel (T : TR D t g) (i : Nat) (f : α → α) :
    Rel (fun a b => TR D a.1 b.1 ∧ b.2 = a.2) (Sparse.writeRef t i f) (writeRef g i f) := by
  unfold writeRef Sparse.writeRef
  rw [T.values]
  refine Rel.same fun _ _ => Rel.same fun _ _ => Rel.same fun _ _ => ?_
  exact .ok ⟨⟨T.levels, rfl, T.keys, T.last⟩, rfl⟩

section
variable (h1 : 1 ≤ D) (h8 : D ≤ 8)
include h1 h8

theorem get_rel (N : Nat) (T : TR D t g) (k : Nat) : (impl α N D).get g k = (Sparse.impl α N D).get t k := by
  unfold Impl.get
  refine Rel.eq (Rel.same fun i _ => Rel.same fun li _ => ?_)
  show Rel Eq (Sparse.treeData t li) (treeData g li)
  rw [treeData_rel h1 h8 T]
  exact Rel.refl

theorem getMut_rel (N : Nat) (T : TR D t g) (k : Nat) : getMut N D g k = Sparse.getMut N D t k := by
  unfold getMut Sparse.getMut
  rw [T.values]
  refine Rel.eq (Rel.same fun i _ => Rel.same fun li _ => ?_)
  rw [fetchIndex_rel h1 h8 T]
  exact Rel.refl

theorem getOrDefault_rel (N : Nat) (T : TR D t g) (k : Nat) :
    getOrDefault N D g k = Sparse.getOrDefault N D t k := by
  unfold getOrDefault Sparse.getOrDefault
  rw [T.values]
  refine Rel.eq (Rel.same fun i _ => Rel.same fun li _ => ?_)
  rw [fetchIndex_rel h1 h8 T]
  exact Rel.refl

theorem step_rel (N : Nat) (T : TR D t g) (op : Op α) :
    Rel (fun a b => TR D a.1 b.1 ∧ b.2 = a.2) (Sparse.step N D t op) (step N D g op) := by
  cases op with
  | insert k v =>
    simp only [Sparse.step, step, Sparse.insert, insert, bind_assoc_R]
    refine Rel.same fun i _ => Rel.bind (getOrInsertImpl_rel h1 h8 N T i true v) fun o o' O => ?_
    exact .ok ⟨O.tree, by rw [O.dropped]⟩
  | getOrInsert k d f =>
    simp only [Sparse.step, step, Sparse.getOrInsert, getOrInsert, bind_assoc_R]
    refine Rel.same fun i _ => Rel.bind (getOrInsertImpl_rel h1 h8 N T i false d) fun o o' O => ?_
    rw [O.dataIndex, O.dropped]
    refine Rel.bind (writeRef_rel O.tree o.dataIndex f) fun a b ⟨q1, q2⟩ => ?_
    exact .ok ⟨q1, by rw [q2]⟩
  | remove k =>
    simp only [Sparse.step, step]
    refine Rel.bind (remove_rel h1 h8 N T k) fun a b ⟨q1, q2⟩ => ?_
    exact .ok ⟨q1, by rw [q2]⟩
  | get k =>
    simp only [Sparse.step, step, get_rel h1 h8 N T]
    exact Rel.same fun v _ => .ok ⟨T, rfl⟩
  | getMut k f =>
    simp only [Sparse.step, step, getMut_rel h1 h8 N T]
    refine Rel.same fun o _ => ?_
    cases o with
    | none => exact .ok ⟨T, rfl⟩
    | some i =>
      refine Rel.bind (writeRef_rel T i f) fun a b ⟨q1, q2⟩ => ?_
      exact .ok ⟨q1, by rw [q2]⟩
  | getOrDefault k =>
    simp only [Sparse.step, step, getOrDefault_rel h1 h8 N T]
    exact Rel.same fun v _ => .ok ⟨T, rfl⟩
  | mutValues f =>
    simp only [Sparse.step, step, Sparse.mutValues, mutValues, Sparse.keyValues, keyValues, T.values, T.keys,
      bind_assoc_R]
    exact Rel.same fun x _ => .ok ⟨⟨T.levels, rfl, rfl, T.last⟩, rfl⟩

theorem run_rel (N : Nat) : ∀ (ops : List (Op α)) {t : ST α} {g : GT α}, TR D t g →
    Rel (fun a b => TR D a.1 b.1 ∧ b.2 = a.2) (Sparse.run N D t ops) (run N D g ops)
  | [], t, g, T => .ok ⟨T, rfl⟩
  | op :: ops, t, g, T => by
    refine Rel.bind (step_rel h1 h8 N T op) fun a b ⟨q1, q2⟩ => ?_
    refine Rel.bind (run_rel N ops q1) fun a' b' ⟨q3, q4⟩ => ?_
    exact .ok ⟨q3, by rw [q2, q4]⟩

end

end Hibit.Typed
