import Verif.Ops.LawfulMI
/-!
# `multi_union` keeps the tree contract (depth at least 2, at most 32 sources)
-/
namespace Hibit

/-- Denotation of a multi-union. -/
def muSpec {S δ : Type} (T : S → TreeSpec δ) (ss : List S) : TreeSpec (List δ) where
  bits := fun p i => ss.any (fun s => (T s).bits p i)
  content := fun p =>
    if (ss.filterMap (fun s => (T s).content p)).isEmpty then none
    else some (ss.filterMap (fun s => (T s).content p))

/-- The node of `s` at `p` has a set bit. -/
def neAt {S δ : Type} (W : Nat) (T : S → TreeSpec δ) (p : List Nat) (s : S) : Bool :=
  (List.range W).any (fun j => (T s).bits p j)

/-- Source `k` exists and its node at `p` has a set bit. -/
def neIdx {S δ : Type} (W : Nat) (T : S → TreeSpec δ) (p : List Nat) (ss : List S) (k : Nat) :
    Bool := (ss[k]?).any (neAt W T p)

/-- Cursor relation of a multi-union. -/
def muRel {S C δ : Type} (W D : Nat) (T : S → TreeSpec δ) (K : S → CursorRel C) (ss : List S) :
    CursorRel (MUCursor S C) :=
  let pos := fun (c : MUCursor S C) (p : List Nat) =>
    c.cursors.map (·.1) = ss ∧ c.lvls.length = D - 1 ∧ p.length + 1 ≤ D ∧
    (∀ l, 1 ≤ l → l ≤ p.length → c.lvls[l - 1]? =
      some ((List.range ss.length).filter (neIdx W T (p.take l) ss))) ∧
    (∀ (k : Nat) s cc, c.cursors[k]? = some (s, cc) → ∀ l, l ≤ p.length →
      (l ≤ 1 ∨ neAt W T (p.take (l - 1)) s = true) →
      (K s).pos cc (p.take l) ∧ (l + 1 = D → (K s).posC cc (p.take l)))
  { inv := fun c => c.cursors.map (·.1) = ss ∧ c.lvls.length = D - 1 ∧
      ∀ (k : Nat) s cc, c.cursors[k]? = some (s, cc) → (K s).inv cc
    pos := pos
    posC := pos }

theorem muGather_eq {S δ : Type} {data : S → R (Option δ)} {g : S → Option δ} (ss : List S)
    (h : ∀ s ∈ ss, data s = .ok (g s)) : ∀ acc : List δ, acc.length + ss.length ≤ multiCap →
    muGather data ss acc = .ok (acc ++ ss.filterMap g) := by
  induction ss with
  | nil => intro acc _; simp [muGather]
  | cons s ss ih =>
    intro acc hl
    simp only [List.length_cons] at hl
    simp only [muGather, h s (by simp), bind_ok]
    cases hg : g s with
    | none =>
      simp only
      rw [ih (fun s hs => h s (by simp [hs])) _ (by omega)]
      simp [hg]
    | some d =>
      simp only [avPush, if_pos (show acc.length < multiCap by omega), bind_ok]
      rw [ih (fun s hs => h s (by simp [hs])) _ (by simp; omega)]
      simp [hg]

theorem muGatherU_eq {S δ : Type} {data : S → R (Option δ)} {g : S → Option δ} (ss : List S)
    (h : ∀ s ∈ ss, data s = .ok (g s)) : muGatherU data ss = .ok (ss.filterMap g) := by
  induction ss with
  | nil => rfl
  | cons s ss ih =>
    simp only [muGatherU, h s (by simp), bind_ok, ih (fun s hs => h s (by simp [hs]))]
    cases hg : g s <;> simp [hg]

theorem avCursors_ok {S C : Type} {new : S → R C} {P : S → C → Prop} (ss : List S)
    (h : ∀ s ∈ ss, ∃ c, new s = .ok c ∧ P s c) : ∀ acc : List (S × C),
    acc.length + ss.length ≤ multiCap →
    ∃ cs, avCursors new ss acc = .ok (acc ++ cs) ∧ cs.map (·.1) = ss ∧
      ∀ s c, (s, c) ∈ cs → P s c := by
  induction ss with
  | nil => intro acc _; exact ⟨[], by simp [avCursors], rfl, by simp⟩
  | cons s ss ih =>
    intro acc hl
    simp only [List.length_cons] at hl
    obtain ⟨c, e, hp⟩ := h s (by simp)
    obtain ⟨cs, e', ha, hb⟩ :=
      ih (fun s hs => h s (by simp [hs])) (acc ++ [(s, c)]) (by simp; omega)
    refine ⟨(s, c) :: cs, ?_, by simp [ha], ?_⟩
    · simp only [avCursors, e, bind_ok, avPush, if_pos (show acc.length < multiCap by omega), e']
      simp
    · intro s' c' hm
      simp only [List.mem_cons, Prod.mk.injEq] at hm
      rcases hm with ⟨rfl, rfl⟩ | hm
      · exact hp
      · exact hb s' c' hm

theorem muSelectRoot_ok {S C δ : Type} {I : Impl S C δ} {i : Nat} {P Q : S → C → Prop}
    {B : S → Nat → Bool}
    (h : ∀ s c, P s c → ∃ m c', I.select c s 0 i = .ok (m, c') ∧
      m.length = I.N ∧ (∀ j, m.bit j = B s j) ∧ Q s c') (cs : List (S × C)) :
    ∀ (acc : Mask), (∀ s c, (s, c) ∈ cs → P s c) → acc.length = I.N →
    ∃ m cs', muSelectRoot I i cs acc = .ok (m, cs') ∧ m.length = I.N ∧
      (∀ j, m.bit j = (acc.bit j || (cs.map (·.1)).any (fun s => B s j))) ∧
      cs'.map (·.1) = cs.map (·.1) ∧ ∀ s c, (s, c) ∈ cs' → Q s c := by
  induction cs with
  | nil => intro acc _ hl; exact ⟨acc, [], rfl, hl, by simp, rfl, by simp⟩
  | cons x cs ih =>
    obtain ⟨s, c⟩ := x
    intro acc hP hl
    obtain ⟨m, c', e, ml, mb, q⟩ := h s c (hP s c (by simp))
    have hlen : acc.length = m.length := by omega
    obtain ⟨m', cs', e', ml', mb', hm, q'⟩ := ih (orMask acc m)
      (fun s c hs => hP s c (by simp [hs])) (by rw [length_orMask hlen, hl])
    refine ⟨m', (s, c') :: cs', ?_, ml', ?_, by simp [hm], ?_⟩
    · simp [muSelectRoot, e, e']
    · intro j
      rw [mb', bit_orMask hlen, mb]
      simp [Bool.or_assoc]
    · intro s1 c1 hm
      simp only [List.mem_cons, Prod.mk.injEq] at hm
      rcases hm with ⟨rfl, rfl⟩ | hm
      · exact q
      · exact q' s1 c1 hm

theorem muSelectSome_ok {S C δ : Type} {I : Impl S C δ} {n i : Nat} {B : Nat → Nat → Bool}
    {Q : Nat → S → C → Prop} {nz : Nat → Bool} (hnz : ∀ k, nz k = true ↔ ∃ j, B k j = true)
    (ks : List Nat) : ∀ (cs : List (S × C)) (ne : List Nat) (acc : Mask), ks.Nodup →
    ne.length + ks.length ≤ multiCap → acc.length = I.N →
    (∀ k ∈ ks, ∃ s c m c', cs[k]? = some (s, c) ∧ I.select c s n i = .ok (m, c') ∧
      m.length = I.N ∧ (∀ j, m.bit j = B k j) ∧ Q k s c') →
    ∃ m cs', muSelectSome I n i ks cs ne acc = .ok (m, cs', ne ++ ks.filter nz) ∧
      m.length = I.N ∧ (∀ j, m.bit j = (acc.bit j || ks.any (fun k => B k j))) ∧
      cs'.map (·.1) = cs.map (·.1) ∧ (∀ k, k ∉ ks → cs'[k]? = cs[k]?) ∧
      (∀ k ∈ ks, ∃ s c', cs'[k]? = some (s, c') ∧ Q k s c') := by
  induction ks with
  | nil =>
    intro cs ne acc _ _ hl _
    exact ⟨acc, cs, by simp [muSelectSome], hl, by simp, rfl, by simp, by simp⟩
  | cons k ks ih =>
    intro cs ne acc hnd hcap hl h
    simp only [List.length_cons] at hcap
    rw [List.nodup_cons] at hnd
    obtain ⟨s, c, m, c', hk, e, ml, mb, q⟩ := h k (by simp)
    have hklt : k < cs.length := (List.getElem?_eq_some_iff.1 hk).1
    have hlen : acc.length = m.length := by omega
    have hset : ∀ k', k' ≠ k → (cs.set k (s, c'))[k']? = cs[k']? := by
      intro k' hne; rw [List.getElem?_set_ne (Ne.symm hne)]
    have hz : (!isZero m) = nz k := by
      rw [Bool.eq_iff_iff, hnz]
      constructor
      · intro hz
        apply Classical.byContradiction
        intro hn
        have : isZero m = true := (isZero_iff m).2 (fun j => by
          rw [mb]
          cases hb : B k j with
          | false => rfl
          | true => exact (hn ⟨j, hb⟩).elim)
        simp [this] at hz
      · rintro ⟨j, hj⟩
        cases hz : isZero m with
        | false => rfl
        | true => have := (isZero_iff m).1 hz j; rw [mb, hj] at this; simp at this
    obtain ⟨m', cs', e', ml', mb', hm, hout, hin⟩ :=
      ih (cs.set k (s, c')) (if nz k then ne ++ [k] else ne) (orMask acc m) hnd.2
        (by split <;> (try rw [List.length_append]) <;> (try simp only [List.length_cons, List.length_nil]) <;> omega) (by rw [length_orMask hlen, hl])
        (fun k' hk' => by
          have hne : k' ≠ k := fun e => hnd.1 (e ▸ hk')
          rw [hset k' hne]
          exact h k' (by simp [hk']))
    refine ⟨m', cs', ?_, ml', ?_, ?_, ?_, ?_⟩
    · simp only [muSelectSome, getU_some hk, bind_ok, e, setU_ok _ hklt, hz]
      cases hkn : nz k with
      | true =>
        rw [hkn] at e'
        simp only [if_true] at e' ⊢
        simp only [avPushU, if_pos (show ne.length < multiCap by omega), bind_ok, e']
        simp [hkn]
      | false =>
        rw [hkn] at e'
        simp only [Bool.false_eq_true, if_false] at e' ⊢
        simp only [pure_eq_ok, bind_ok, e']
        simp [hkn]
    · intro j
      rw [mb', bit_orMask hlen, mb]
      simp [Bool.or_assoc]
    · rw [hm, List.map_set]
      have : (cs.map (·.1))[k]? = some s := by simp [hk]
      apply List.ext_getElem?
      intro k'
      by_cases hkk : k = k'
      · subst hkk
        rw [List.getElem?_set_self (by simpa using hklt), this]
      · rw [List.getElem?_set_ne hkk]
    · intro k' hk'
      simp only [List.mem_cons, not_or] at hk'
      rw [hout k' hk'.2, hset k' hk'.1]
    · intro k' hk'
      simp only [List.mem_cons] at hk'
      rcases hk' with rfl | hk'
      · refine ⟨s, c', ?_, q⟩
        rw [hout k' hnd.1, List.getElem?_set_self hklt]
      · exact hin k' hk'

theorem muCursorData_ok {S C δ : Type} {I : Impl S C δ} {cs : List (S × C)} {i : Nat}
    {g : Nat → Option δ} (ks : List Nat)
    (h : ∀ k ∈ ks, ∃ s c, cs[k]? = some (s, c) ∧ I.curData c s i = .ok (g k)) :
    muCursorData I cs i ks = .ok (ks.filterMap g) := by
  induction ks with
  | nil => rfl
  | cons k ks ih =>
    obtain ⟨s, c, hk, e⟩ := h k (by simp)
    simp only [muCursorData, getU_some hk, bind_ok, e, ih (fun k hk => h k (by simp [hk]))]
    cases hg : g k <;> simp [hg]

theorem filterMap_range_get {S δ : Type} (ss : List S) (g : S → Option δ) :
    (List.range ss.length).filterMap (fun k => (ss[k]?).bind g) = ss.filterMap g := by
  induction ss with
  | nil => rfl
  | cons s ss ih =>
    rw [List.length_cons, List.range_succ_eq_map, List.filterMap_cons, List.filterMap_map]
    have : (fun k => ((s :: ss)[k]?).bind g) ∘ Nat.succ = fun k => (ss[k]?).bind g := by
      funext k; simp
    rw [this, ih]
    simp only [List.filterMap_cons]
    simp

theorem filterMap_filter_of_none {α β : Type} (l : List α) (q : α → Bool) (g : α → Option β)
    (h : ∀ a ∈ l, q a = false → g a = none) : (l.filter q).filterMap g = l.filterMap g := by
  induction l with
  | nil => rfl
  | cons a l ih =>
    have := ih (fun a ha => h a (by simp [ha]))
    cases hq : q a with
    | false => simp [hq, h a (by simp) hq, this]
    | true => simp [hq, List.filterMap_cons, this]

theorem neAt_iff {S δ : Type} {W : Nat} {T : S → TreeSpec δ} {p : List Nat} {s : S}
    (h : ∀ i, (T s).bits p i = true → i < W) :
    neAt W T p s = true ↔ ∃ j, (T s).bits p j = true := by
  simp only [neAt, List.any_eq_true, List.mem_range]
  constructor
  · rintro ⟨j, _, hj⟩; exact ⟨j, hj⟩
  · rintro ⟨j, hj⟩; exact ⟨j, h j hj, hj⟩

/-- What a positioned multi-union cursor's `data` answers at a terminal node. -/
theorem mu_curData_eq {S C δ : Type} {I : Impl S C δ} {ss : List S} {T : S → TreeSpec δ}
    {K : S → CursorRel C} (hD : 2 ≤ I.D) (h : ∀ s ∈ ss, LawfulC I s (T s) (K s))
    {c : MUCursor S C} {p : List Nat} {i : Nat}
    (hpos : (muRel (width I.N) I.D T K ss).pos c p) (hp : ValidPath (width I.N) p)
    (hi : i < width I.N) (hl : p.length + 1 = I.D) :
    ((∃ j, (muSpec T ss).bits p j = true) →
      muCurData I c i = .ok (some (ss.filterMap (fun s => (T s).content (p ++ [i]))))) ∧
    ((¬ ∃ j, (muSpec T ss).bits p j = true) → muCurData I c i = .ok none) := by
  obtain ⟨h1, h2, h3, h4, h5⟩ := hpos
  have mem_of : ∀ {c : MUCursor S C} {k : Nat} {s : S} {cc : C}, c.cursors.map (·.1) = ss →
      c.cursors[k]? = some (s, cc) → s ∈ ss ∧ ss[k]? = some s := by
    intro c k s cc hm hk
    have : ss[k]? = some s := by rw [← hm]; simp [hk]
    exact ⟨List.mem_of_getElem? this, this⟩
  have hlD : p.length + 1 = I.D := hl
  have hlast : c.lvls.getLast? =
      some ((List.range ss.length).filter (neIdx (width I.N) T p ss)) := by
    have := h4 p.length (by omega) (by omega)
    rw [List.take_length] at this
    rw [List.getLast?_eq_getElem?, ← this]
    congr 1; omega
  have hcd : muCursorData I c.cursors i
      ((List.range ss.length).filter (neIdx (width I.N) T p ss)) =
      .ok (ss.filterMap (fun s => (T s).content (p ++ [i]))) := by
    rw [muCursorData_ok (g := fun k => (ss[k]?).bind (fun s => (T s).content (p ++ [i])))]
    · congr 1
      rw [filterMap_filter_of_none, filterMap_range_get]
      intro k hk hn
      cases hs : ss[k]? with
      | none => rfl
      | some s =>
        have hsm := List.mem_of_getElem? hs
        simp only [neIdx, hs, Option.any_some] at hn
        simp only [Option.bind_some]
        cases hc : (T s).content (p ++ [i]) with
        | none => rfl
        | some d =>
          exfalso
          have hb := (h s hsm).wf.terminal p i hp hl hi
          rw [hc] at hb
          have := (neAt_iff (fun j => (h s hsm).wf.bits_lt _ j)).2 ⟨i, hb⟩
          rw [hn] at this; simp at this
    · intro k hk
      simp only [List.mem_filter, List.mem_range] at hk
      have hkc : k < c.cursors.length := by rw [← h1] at hk; simpa using hk.1
      obtain ⟨⟨s, cc⟩, hsc⟩ : ∃ x, c.cursors[k] = x := ⟨_, rfl⟩
      have hget : c.cursors[k]? = some (s, cc) := by rw [List.getElem?_eq_getElem hkc, hsc]
      have ⟨hs, hss⟩ := mem_of h1 hget
      refine ⟨s, cc, hget, ?_⟩
      simp only [hss, Option.bind_some]
      have hpos := (h5 k s cc hget p.length (by omega) (by
        by_cases h2 : p.length ≤ 1
        · exact .inl h2
        · right
          have hn := hk.2
          simp only [neIdx, hss, Option.any_some] at hn
          rw [neAt_iff (fun j => (h s hs).wf.bits_lt _ j)] at hn ⊢
          obtain ⟨j, hj⟩ := hn
          have hne : p ≠ [] := by intro e; simp [e] at h2
          refine ⟨p.getLast hne, (h s hs).wf.upward _ _ j ?_ ?_ ?_ ?_⟩
          · exact hp.take _
          · exact hp _ (List.getLast_mem hne)
          · simp; omega
          · rw [← List.dropLast_eq_take, List.dropLast_concat_getLast hne]; exact hj)).2 hl
      rw [List.take_length] at hpos
      exact (h s hs).curData_eq cc p i hpos hp hi hl
  have hempty : ((List.range ss.length).filter (neIdx (width I.N) T p ss)).isEmpty = true ↔
      ¬ ∃ j, (muSpec T ss).bits p j = true := by
    rw [List.isEmpty_iff, List.filter_eq_nil_iff]
    constructor
    · rintro hn ⟨j, hj⟩
      simp only [muSpec, List.any_eq_true] at hj
      obtain ⟨s, hs, hj⟩ := hj
      obtain ⟨k, hk⟩ := List.getElem?_of_mem hs
      refine hn k (List.mem_range.2 (List.getElem?_eq_some_iff.1 hk).1) ?_
      simp only [neIdx, hk, Option.any_some]
      exact (neAt_iff (fun j => (h s hs).wf.bits_lt _ j)).2 ⟨j, hj⟩
    · intro hn k hk hne
      refine hn ?_
      have hk' := List.mem_range.1 hk
      simp only [neIdx, List.getElem?_eq_getElem hk', Option.any_some] at hne
      obtain ⟨j, hj⟩ := (neAt_iff (fun j => (h _ (List.getElem_mem hk')).wf.bits_lt _ j)).1 hne
      exact ⟨j, by simp only [muSpec, List.any_eq_true]; exact ⟨_, List.getElem_mem hk', hj⟩⟩
  simp only [muCurData, if_neg (show ¬ I.D = 1 by omega), hlast, unwrapU, bind_ok]
  refine ⟨fun hx => ?_, fun hx => ?_⟩
  · rw [if_neg (by rw [hempty]; simpa using hx), hcd]; rfl
  · rw [if_pos (hempty.2 hx)]; rfl

theorem mu_lawful {S C δ : Type} {I : Impl S C δ} {ss : List S} {T : S → TreeSpec δ}
    {K : S → CursorRel C} (hcfg : ValidCfg I.N I.D) (hD : 2 ≤ I.D) (hcap : ss.length ≤ multiCap)
    (h : ∀ s ∈ ss, LawfulC I s (T s) (K s)) :
    Lawful (multiUnionImpl I) ss (muSpec T ss) (muRel (width I.N) I.D T K ss) := by
  have mem_of : ∀ {c : MUCursor S C} {k : Nat} {s : S} {cc : C}, c.cursors.map (·.1) = ss →
      c.cursors[k]? = some (s, cc) → s ∈ ss ∧ ss[k]? = some s := by
    intro c k s cc hm hk
    have : ss[k]? = some s := by rw [← hm]; simp [hk]
    exact ⟨List.mem_of_getElem? this, this⟩
  have hroot : ∀ c i, (muRel (width I.N) I.D T K ss).inv c → i = 0 →
      ∃ m c', (multiUnionImpl I).select c ss 0 i = .ok (m, c') ∧
      m.length = I.N ∧ (∀ j, m.bit j = (muSpec T ss).bits [] j) ∧
      (muRel (width I.N) I.D T K ss).posC c' [] := by
    rintro c i ⟨h1, h2, h3⟩ hi
    obtain ⟨m, cs', e, ml, mb, hm, hq⟩ := muSelectRoot_ok (I := I) (i := i)
      (P := fun s c => s ∈ ss ∧ (K s).inv c) (Q := fun s c => s ∈ ss ∧ (K s).posC c [])
      (B := fun s j => (T s).bits [] j)
      (fun s c hP => by
        obtain ⟨m, c', e, ml, mb, q⟩ := (h s hP.1).select_root c i hP.2 hi
        exact ⟨m, c', e, ml, mb, hP.1, q⟩) c.cursors (zeroMask I.N)
      (fun s cc hs => by
        obtain ⟨k, hk⟩ := List.getElem?_of_mem hs
        exact ⟨(mem_of h1 hk).1, h3 k s cc hk⟩) (by simp [zeroMask])
    refine ⟨m, { c with cursors := cs' }, by simp [multiUnionImpl, muSelect, e], ml, ?_, ?_⟩
    · intro j; rw [mb, bit_zeroMask, h1]; simp [muSpec]
    · refine ⟨by rw [← h1, ← hm], h2, by simp; omega, ?_, ?_⟩
      · intro l hl1 hl2; simp at hl2; omega
      · intro k s cc hk l hl _
        have := hq s cc (List.mem_of_getElem? hk)
        simp only [List.take_nil]
        exact ⟨(h s this.1).posC_pos _ _ this.2, fun _ => this.2⟩
  have hnode : ∀ c p i, (muRel (width I.N) I.D T K ss).pos c p → ValidPath (width I.N) p →
      i < width I.N → p.length + 2 ≤ I.D →
      ∃ m c', (multiUnionImpl I).select c ss (p.length + 1) i = .ok (m, c') ∧
      m.length = I.N ∧ (∀ j, m.bit j = (muSpec T ss).bits (p ++ [i]) j) ∧
      (muRel (width I.N) I.D T K ss).posC c' (p ++ [i]) := by
    rintro c p i ⟨h1, h2, h3, h4, h5⟩ hp hi hl
    have hclen : c.cursors.length = ss.length := by rw [← h1]; simp
    have hmc : multiCap = 32 := rfl
    -- upward for non-emptiness
    have hup : ∀ s ∈ ss, neAt (width I.N) T (p ++ [i]) s = true →
        neAt (width I.N) T p s = true := by
      intro s hs hn
      rw [neAt_iff (fun j => (h s hs).wf.bits_lt _ j)] at hn ⊢
      obtain ⟨j, hj⟩ := hn
      exact ⟨i, (h s hs).wf.upward p i j hp hi hl hj⟩
    have hupD : ∀ s ∈ ss, 2 ≤ p.length → neAt (width I.N) T p s = true →
        neAt (width I.N) T (p.take (p.length - 1)) s = true := by
      intro s hs h2 hn
      rw [neAt_iff (fun j => (h s hs).wf.bits_lt _ j)] at hn ⊢
      obtain ⟨j, hj⟩ := hn
      have hne : p ≠ [] := by intro e; simp [e] at h2
      refine ⟨p.getLast hne, (h s hs).wf.upward _ _ j ?_ ?_ ?_ ?_⟩
      · exact hp.take _
      · exact hp _ (List.getLast_mem hne)
      · simp; omega
      · rw [← List.dropLast_eq_take, List.dropLast_concat_getLast hne]; exact hj
    -- the list of sources to be selected
    have hks : ∃ ks, (if p.length + 1 = 1 then pure (List.range (c.cursors.length % 256))
          else getU (c.lvls.set p.length []) (p.length + 1 - 2) : R (List Nat)) = .ok ks ∧
        ks.Nodup ∧ ks.length ≤ multiCap ∧ (∀ k ∈ ks, k < ss.length) ∧
        (∀ k, k < ss.length → k ∉ ks → neIdx (width I.N) T p ss k = false ∧ 1 ≤ p.length) ∧
        (∀ k ∈ ks, p.length ≤ 1 ∨ neIdx (width I.N) T p ss k = true) ∧
        (ks.filter (neIdx (width I.N) T (p ++ [i]) ss) =
          (List.range ss.length).filter (neIdx (width I.N) T (p ++ [i]) ss)) := by
      by_cases hz : p.length = 0
      · refine ⟨List.range ss.length, ?_, List.nodup_range, by simpa using hcap,
          by simp, ?_, ?_, rfl⟩
        · rw [if_pos (by omega), hclen, Nat.mod_eq_of_lt (by omega)]; rfl
        · intro k hk hk'; simp at hk'; omega
        · intro k _; left; omega
      · refine ⟨(List.range ss.length).filter (neIdx (width I.N) T p ss), ?_, ?_, ?_, ?_, ?_, ?_, ?_⟩
        · rw [if_neg (by omega)]
          apply getU_some
          rw [List.getElem?_set_ne (by omega)]
          have := h4 p.length (by omega) (by omega)
          rw [List.take_length] at this
          exact this
        · exact List.nodup_range.filter _
        · exact Nat.le_trans (List.length_filter_le _ _) (by simpa using hcap)
        · intro k hk; simp at hk; exact hk.1
        · intro k hk hk'
          simp only [List.mem_filter, List.mem_range, not_and, Bool.not_eq_true] at hk'
          exact ⟨hk' hk, by omega⟩
        · intro k hk; simp only [List.mem_filter] at hk; exact .inr hk.2
        · rw [List.filter_filter]
          apply List.filter_congr
          intro k hk
          simp only [List.mem_range] at hk
          cases hn : neIdx (width I.N) T (p ++ [i]) ss k with
          | false => simp
          | true =>
            have := hup ss[k] (List.getElem_mem hk)
            simp only [neIdx, List.getElem?_eq_getElem hk, Option.any_some] at hn ⊢
            simp [this hn]
    obtain ⟨ks, hkse, hnd, hkl, hklt, hkout, hkin, hkf⟩ := hks
    have hpre : ∀ k ∈ ks, ∃ s cc m c', c.cursors[k]? = some (s, cc) ∧
        I.select cc s (p.length + 1) i = .ok (m, c') ∧ m.length = I.N ∧
        (∀ j, m.bit j = (ss[k]?).any (fun s => (T s).bits (p ++ [i]) j)) ∧
        (s ∈ ss ∧ (K s).posC c' (p ++ [i])) := by
      intro k hk
      have hk' := hklt k hk
      have hkc : k < c.cursors.length := by omega
      obtain ⟨⟨s, cc⟩, hsc⟩ : ∃ x, c.cursors[k] = x := ⟨_, rfl⟩
      have hget : c.cursors[k]? = some (s, cc) := by rw [List.getElem?_eq_getElem hkc, hsc]
      have ⟨hs, hss⟩ := mem_of h1 hget
      have hpos : (K s).pos cc p := by
        have := (h5 k s cc hget p.length (by omega) (by
          by_cases h2 : p.length ≤ 1
          · exact .inl h2
          · right
            rcases hkin k hk with h | h
            · omega
            · simp only [neIdx, hss, Option.any_some] at h
              exact hupD s hs (by omega) h)).1
        rwa [List.take_length] at this
      obtain ⟨m, c', e, ml, mb, q⟩ := (h s hs).select_node cc p i hpos hp hi hl
      exact ⟨s, cc, m, c', hget, e, ml, by intro j; rw [mb, hss]; rfl, hs, q⟩
    obtain ⟨m, cs', e, ml, mb, hm, hout, hin⟩ := muSelectSome_ok
      (I := I) (n := p.length + 1) (i := i)
      (B := fun k j => (ss[k]?).any (fun s => (T s).bits (p ++ [i]) j))
      (Q := fun _ s c' => s ∈ ss ∧ (K s).posC c' (p ++ [i]))
      (nz := neIdx (width I.N) T (p ++ [i]) ss)
      (by
        intro k
        unfold neIdx
        cases hk : ss[k]? with
        | none => simp
        | some s =>
          simp only [Option.any_some]
          exact neAt_iff (fun j => (h s (List.mem_of_getElem? hk)).wf.bits_lt _ j))
      ks c.cursors [] (zeroMask I.N) hnd (by simpa using hkl) (by simp [zeroMask]) hpre
    have hlt1 : p.length < c.lvls.length := by omega
    refine ⟨m, ⟨cs', (c.lvls.set p.length []).set p.length
      ((List.range ss.length).filter (neIdx (width I.N) T (p ++ [i]) ss))⟩, ?_, ml, ?_, ?_⟩
    · simp only [multiUnionImpl, muSelect, if_neg (Nat.succ_ne_zero p.length),
        Nat.add_sub_cancel, setU_ok _ hlt1, bind_ok]
      have hfin : ∀ ne, ne = (List.range ss.length).filter (neIdx (width I.N) T (p ++ [i]) ss) →
          setU (c.lvls.set p.length []) p.length ne = .ok ((c.lvls.set p.length []).set p.length
          ((List.range ss.length).filter (neIdx (width I.N) T (p ++ [i]) ss))) := by
        rintro _ rfl
        rw [setU_ok _ (by simpa using hlt1)]
      by_cases hz : p.length + 1 = 1
      · rw [if_pos hz] at hkse ⊢
        rw [hkse]
        simp only [bind_ok, e, List.nil_append, hkf, hfin _ rfl, pure_eq_ok]
      · rw [if_neg hz] at hkse ⊢
        rw [hkse]
        simp only [bind_ok, e, List.nil_append, hkf, hfin _ rfl, pure_eq_ok]
    · intro j
      rw [mb, bit_zeroMask, Bool.false_or]
      simp only [muSpec]
      rw [Bool.eq_iff_iff, List.any_eq_true, List.any_eq_true]
      constructor
      · rintro ⟨k, hk, hb⟩
        cases hs : ss[k]? with
        | none => simp [hs] at hb
        | some s =>
          simp only [hs, Option.any_some] at hb
          exact ⟨s, List.mem_of_getElem? hs, hb⟩
      · rintro ⟨s, hs, hb⟩
        obtain ⟨k, hk⟩ := List.getElem?_of_mem hs
        refine ⟨k, ?_, by simp [hk, hb]⟩
        apply Classical.byContradiction
        intro hn
        have hklt' : k < ss.length := (List.getElem?_eq_some_iff.1 hk).1
        have := (hkout k hklt' hn).1
        simp only [neIdx, hk, Option.any_some] at this
        have hh := hup s hs ((neAt_iff (fun j => (h s hs).wf.bits_lt _ j)).2 ⟨j, hb⟩)
        rw [this] at hh; simp at hh
    · refine ⟨by rw [hm, h1], by simp [h2], by simp; omega, ?_, ?_⟩
      · intro l hl1 hl2
        simp only [List.length_append, List.length_cons, List.length_nil] at hl2
        by_cases hlp : l = p.length + 1
        · subst hlp
          simp only [Nat.add_sub_cancel]
          rw [List.getElem?_set_self (by simpa using hlt1), List.take_of_length_le (by simp)]
        · rw [List.getElem?_set_ne (by omega), List.getElem?_set_ne (by omega),
            h4 l hl1 (by omega), List.take_append_of_le_length (by omega)]
      · intro k s cc hk l hl' hc
        simp only [List.length_append, List.length_cons, List.length_nil] at hl'
        by_cases hkk : k ∈ ks
        · obtain ⟨s', c', hk', hs', q⟩ := hin k hkk
          rw [hk] at hk'
          simp only [Option.some.injEq, Prod.mk.injEq] at hk'
          obtain ⟨rfl, rfl⟩ := hk'
          refine ⟨(h s hs').pos_take _ _ l ((h s hs').posC_pos _ _ q), ?_⟩
          intro hlD
          rw [List.take_of_length_le (by simp; omega)]
          exact q
        · rw [hout k hkk] at hk
          have ⟨hs, hss⟩ := mem_of h1 hk
          have hklt' : k < ss.length := (List.getElem?_eq_some_iff.1 hss).1
          have hnk := hkout k hklt' hkk
          simp only [neIdx, hss, Option.any_some] at hnk
          by_cases hlp : l = p.length + 1
          · subst hlp
            exfalso
            rcases hc with hc | hc
            · omega
            · simp only [Nat.add_sub_cancel, List.take_left] at hc
              rw [hnk.1] at hc; simp at hc
          · rw [List.take_append_of_le_length (by omega)]
            refine h5 k s cc hk l (by omega) ?_
            rcases hc with hc | hc
            · exact .inl hc
            · right
              rw [List.take_append_of_le_length (by omega)] at hc
              exact hc
  exact
  { cfg := hcfg
    wf :=
      { bits_lt := by
          intro p i hb
          simp only [muSpec, List.any_eq_true] at hb
          obtain ⟨s, hs, hb⟩ := hb
          exact (h s hs).wf.bits_lt p i hb
        terminal := by
          intro p i hp hl hi
          simp only [muSpec]
          rw [Bool.eq_iff_iff, List.any_eq_true]
          constructor
          · rintro ⟨s, hs, hb⟩
            rw [(h s hs).wf.terminal p i hp hl hi] at hb
            obtain ⟨d, hd⟩ := Option.isSome_iff_exists.1 hb
            have hmem : d ∈ ss.filterMap (fun s => (T s).content (p ++ [i])) :=
              List.mem_filterMap.2 ⟨s, hs, hd⟩
            rw [if_neg]
            · rfl
            · intro he; rw [List.isEmpty_iff] at he; rw [he] at hmem; simp at hmem
          · intro hc
            by_cases he : (ss.filterMap (fun s => (T s).content (p ++ [i]))).isEmpty = true
            · rw [if_pos he] at hc; simp at hc
            · rw [List.isEmpty_iff] at he
              obtain ⟨d, hd⟩ := List.exists_mem_of_ne_nil _ he
              obtain ⟨s, hs, hd⟩ := List.mem_filterMap.1 hd
              exact ⟨s, hs, by rw [(h s hs).wf.terminal p i hp hl hi, hd]; rfl⟩
        upward := by
          intro p i j hp hi hl hb
          simp only [muSpec, List.any_eq_true] at hb ⊢
          obtain ⟨s, hs, hb⟩ := hb
          exact ⟨s, hs, (h s hs).wf.upward p i j hp hi hl hb⟩
        exact_child := by
          intro he p i hp hl hb
          simp only [muSpec, List.any_eq_true] at hb ⊢
          obtain ⟨s, hs, hb⟩ := hb
          obtain ⟨j, hj⟩ := (h s hs).wf.exact_child he p i hp hl hb
          exact ⟨j, s, hs, hj⟩ }
    data_eq := by
      intro p hp hl
      have := muGather_eq (data := fun s => I.data s (unpath (width I.N) p) p)
        (g := fun s => (T s).content p) ss (fun s hs => (h s hs).data_eq p hp hl) []
        (by simpa using hcap)
      have hN : (multiUnionImpl I).N = I.N := rfl
      simp only [hN]
      simp only [multiUnionImpl, this, muSpec, bind_ok, List.nil_append]
      split <;> rfl
    dataU_eq := by
      intro p d hp hl hd
      have := muGatherU_eq (data := fun s => I.data s (unpath (width I.N) p) p)
        (g := fun s => (T s).content p) ss (fun s hs => (h s hs).data_eq p hp hl)
      have hN : (multiUnionImpl I).N = I.N := rfl
      simp only [hN]
      simp only [multiUnionImpl, this]
      simp only [muSpec] at hd
      split at hd
      · simp at hd
      · simpa using hd
    new_ok := by
      obtain ⟨cs, e, ha, hb⟩ := avCursors_ok (new := I.new) (P := fun s c => (K s).inv c) ss
        (fun s hs => (h s hs).new_ok) [] (by simpa using hcap)
      refine ⟨⟨cs, List.replicate (I.D - 1) []⟩, by simp [multiUnionImpl, e], ha, by simp, ?_⟩
      intro k s cc hk
      exact hb s cc (List.mem_of_getElem? hk)
    pos_inv := by
      rintro c p ⟨h1, h2, h3, h4, h5⟩
      refine ⟨h1, h2, ?_⟩
      intro k s cc hk
      have := (h5 k s cc hk 0 (by omega) (.inl (by omega))).1
      exact (h s (mem_of h1 hk).1).pos_inv _ _ this
    posC_pos := fun c p hc => hc
    pos_take := by
      rintro c p k ⟨h1, h2, h3, h4, h5⟩
      have hlen : (p.take k).length ≤ p.length := by simp; omega
      refine ⟨h1, h2, by omega, ?_, ?_⟩
      · intro l hl1 hl2
        rw [h4 l hl1 (by omega), List.take_take, Nat.min_eq_left]
        simp at hl2; omega
      · intro k' s cc hk l hl hc
        have h6 : (p.take k).take l = p.take l := by
          rw [List.take_take, Nat.min_eq_left]; simp at hl; omega
        have h7 : (p.take k).take (l - 1) = p.take (l - 1) := by
          rw [List.take_take, Nat.min_eq_left]; simp at hl; omega
        rw [h6]; rw [h7] at hc
        exact h5 k' s cc hk l (by omega) hc
    select_root := hroot
    selectU_root := hroot
    select_node := hnode
    selectU_node := fun c p i hc hp hi hd _ => hnode c p i hc hp hi hd
    curDataU_eq := by
      intro c p i d hpos hp hi hl hd
      simp only [muSpec] at hd
      split at hd
      · simp at hd
      rename_i hne
      simp only [Option.some.injEq] at hd
      have hx : ∃ j, (muSpec T ss).bits p j = true := by
        rw [List.isEmpty_iff] at hne
        obtain ⟨x, hx⟩ := List.exists_mem_of_ne_nil _ hne
        obtain ⟨s, hs, hx⟩ := List.mem_filterMap.1 hx
        refine ⟨i, ?_⟩
        simp only [muSpec, List.any_eq_true]
        exact ⟨s, hs, by rw [(h s hs).wf.terminal p i hp hl hi, hx]; rfl⟩
      show (do let d ← muCurData I c i; unwrapU d) = _
      rw [(mu_curData_eq hD h hpos hp hi hl).1 hx, hd]
      rfl }

end Hibit
