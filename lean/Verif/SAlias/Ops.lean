import Verif.SAlias.Lemmas
/-!
# The operations of SparseTree keep their borrows
-/
namespace Hibit.SAlias
open Hibit Hibit.Sparse
open Hibit.Alias (Perm Item Acc Tag)
open Hibit.Typed (GLevel BPtr GT Rel)

/-- The right computation does one more successful step. -/
theorem Rel.skip {A B X : Type} {Q : A → B → Prop} {x : R A} {y : R X} {b : X} {f : X → R B} (e : y = .ok b)
    (h : Rel Q x (f b)) : Rel Q x (y >>= f) := by
  rw [e]; exact h

/-- The whole tree is borrowed by the chain `is`. -/
def Own (D : Nat) (z : St) (is : List Item) : Prop := ∀ pl ∈ inline D, Ch z pl is

theorem mem_heads {D n : Nat} : Place.head n ∈ heads D ↔ n < D := by
  unfold heads
  constructor
  · intro h
    obtain ⟨m, hm, e⟩ := List.mem_map.1 h
    cases e
    exact List.mem_range.1 hm
  · intro h
    exact List.mem_map.2 ⟨n, List.mem_range.2 h, rfl⟩

theorem heads_inline {D : Nat} {pl : Place} (h : pl ∈ heads D) : pl ∈ inline D := List.mem_append_left _ h

theorem inline_cases {D : Nat} {pl : Place} (h : pl ∈ inline D) :
    (∃ n, n < D ∧ pl = .head n) ∨ pl = .values ∨ pl = .keys ∨ pl = .last := by
  rcases List.mem_append.1 h with h | h
  · obtain ⟨n, hn, rfl⟩ := List.mem_map.1 h
    exact .inl ⟨n, List.mem_range.1 hn, rfl⟩
  · exact .inr (by simpa using h)

theorem Own.head {D : Nat} {z : St} {is : List Item} (h : Own D z is) {n : Nat} (hn : n < D) : Ch z (.head n) is :=
  h _ (heads_inline (mem_heads.2 hn))

theorem mem_values (D : Nat) : Place.values ∈ inline D := List.mem_append_right _ (by simp)
theorem mem_keys (D : Nat) : Place.keys ∈ inline D := List.mem_append_right _ (by simp)
theorem mem_last (D : Nat) : Place.last ∈ inline D := List.mem_append_right _ (by simp)

theorem ch_sub {z : St} {pl : Place} {xs ys : List Item} (h : Ch z pl ys) (hs : xs.Sublist ys) : Ch z pl xs := hs.trans h

/-- Only one place of the tree changed, and there `i` is still on the stack. -/
theorem Own.of {D : Nat} {z z' : St} {is : List Item} (h : Own D z is) {pl : Place} (f : ∀ q, q ≠ pl → z'.stk q = z.stk q)
    (hc : Ch z' pl is) : Own D z' is := by
  intro q hq
  by_cases e : q = pl
  · subst e; exact hc
  · exact ch_of_eq (f q e) (h q hq)

/-- The same for a block. -/
theorem Own.block {D : Nat} {z z' : St} {is : List Item} {c : Item} (h : Own D z is) {n g pos : Nat}
    (f : ∀ q, q ≠ blockPlace n g pos → z'.stk q = z.stk q) (hc : Ch z' (blockPlace n g pos) (c :: below n is)) :
    Own D z' is := by
  by_cases hn : n = 0
  · subst hn
    exact h.of f hc.tail
  · intro q hq
    have : q ≠ blockPlace n g pos := by
      unfold blockPlace
      rw [if_neg hn]
      intro e
      subst e
      rcases inline_cases hq with ⟨m, -, e⟩ | e | e | e <;> cases e
    exact ch_of_eq (f q this) (h q hq)

/-- Only level `n` changed, and its head is still borrowed by `i`. -/
theorem Own.fr {D : Nat} {z z' : St} {is : List Item} (h : Own D z is) {n : Nat} (f : Fr n z z') (hc : Ch z' (.head n) is) :
    Own D z' is := by
  intro q hq
  by_cases e : At n q
  · rcases inline_cases hq with ⟨m, -, rfl⟩ | rfl | rfl | rfl
    · have : m = n := e
      subst this; exact hc
    · exact e.elim
    · exact e.elim
    · exact e.elim
  · exact f.ch e (h q hq)

/-- A borrow of the whole tree. -/
theorem own_retag {D : Nat} {z : St} {i : Item} {ys : List Item} {pm : Perm} (hp : Perm.le pm i)
    (h : Own D z (i :: ys)) :
    ∃ n z', retag pm (some i.tag) (inline D) z = .ok (some n, z') ∧ Own D z' (⟨pm, n⟩ :: i :: ys) ∧
      (∀ q, q ∉ inline D → z'.stk q = z.stk q) ∧ (pm = .shared → Mono z z') :=
  retag_spec hp (fun _ => ys) (inline D) h

theorem leave_own {D : Nat} {z : St} {i : Item} {ys : List Item} (h : Own D z (i :: ys)) :
    leave (some i.tag) (inline D) z = .ok () := leave_ok fun pl hpl => (h pl hpl).mem

theorem Own.tail {D : Nat} {z : St} {i : Item} {ys : List Item} (h : Own D z (i :: ys)) : Own D z ys :=
  fun pl hpl => (h pl hpl).tail

theorem own_none (D : Nat) (pm : Perm) (z : St) :
    ∃ n z', retag pm none (inline D) z = .ok (some n, z') ∧ Own D z' [⟨pm, n⟩] ∧ (pm = .shared → Mono z z') := by
  obtain ⟨n, z', e, h, -, m⟩ := retag_none pm (inline D) z
  exact ⟨n, z', e, h, m⟩

/-- Several chains at once: `heads` are borrowed by `c :: xs`, the rest of the tree by what it was. -/
structure Tup (D : Nat) (z : St) (c : Item) (xs : List Item) (is : List Item) : Prop where
  own : Own D z is
  heads : ∀ n, n < D → Ch z (.head n) (c :: xs)

theorem Tup.fr {D : Nat} {z z' : St} {c : Item} {xs is : List Item} (h : Tup D z c xs is) (hi : is.Sublist xs) {n : Nat}
    (f : Fr n z z') (hc : Ch z' (.head n) (c :: xs)) : Tup D z' c xs is where
  own := h.own.fr f (ch_sub hc.tail hi)
  heads := fun m hm => by
    by_cases e : m = n
    · subst e; exact hc
    · exact f.ch (fun h' : At n (.head m) => e h') (h.heads m hm)

theorem leave_tup {D : Nat} {z : St} {c : Item} {xs is : List Item} (h : Tup D z c xs is) :
    leave (some c.tag) (heads D) z = .ok () := leave_ok fun pl hpl => by
  obtain ⟨n, hn, rfl⟩ := List.mem_map.1 hpl
  exact (h.heads n (List.mem_range.1 hn)).mem

/-- A borrow of the tuple when the tree is borrowed by `j :: xs`. -/
theorem tup_retag {D : Nat} {z : St} {is : List Item} {pm : Perm} (ho : Own D z is)
    {j : Item} {xs : List Item} (hj : Perm.le pm j) (hh : Own D z (j :: xs)) (hx : is.Sublist (j :: xs)) :
    ∃ n z', retag pm (some j.tag) (heads D) z = .ok (some n, z') ∧ Tup D z' ⟨pm, n⟩ (j :: xs) is ∧
      (pm = .shared → Mono z z') := by
  obtain ⟨n, z', e, h1, f, m⟩ := retag_spec hj (fun _ => xs) (heads D) (z := z) (by
    intro pl hpl
    obtain ⟨k, hk, rfl⟩ := List.mem_map.1 hpl
    exact hh.head (List.mem_range.1 hk))
  refine ⟨n, z', e, ⟨?_, fun k hk => h1 _ (mem_heads.2 hk)⟩, m⟩
  intro q hq
  by_cases hm : q ∈ heads D
  · exact ch_sub (h1 q hm).tail hx
  · exact ch_of_eq (f q hm) (ho q hq)

/-! ## Block pointers -/

theorem matchArms_inv {β : Type} {i : Nat} {f : Nat → R β} {b : β} : ∀ {js : List Nat},
    Typed.matchArms i f js = .ok b → f i = .ok b
  | [], h => by cases h
  | j :: js, h => by
    unfold Typed.matchArms at h
    split at h
    · rename_i e; subst e; exact h
    · exact matchArms_inv h

theorem getP_inv {β : Type} {l : List β} {i : Nat} {x : β} (h : getP l i = .ok x) : l[i]? = some x := by
  unfold getP at h
  split at h
  · cases h; assumption
  · cases h

theorem getP_lt {β : Type} {l : List β} {i : Nat} {x : β} (h : getP l i = .ok x) : i < l.length :=
  (List.getElem?_eq_some_iff.1 (getP_inv h)).1

theorem getU_lt {β : Type} {l : List β} {i : Nat} {x : β} (h : getU l i = .ok x) : i < l.length :=
  (List.getElem?_eq_some_iff.1 (getU_inv h)).1

theorem getBlock_inv {lv : List GLevel} {n pos : Nat} {p : BPtr} (h : Typed.getBlock lv n pos = .ok p) :
    ∃ L, getP lv n = .ok L ∧ n < lv.length ∧ pos < L.level.blocks.length ∧ p = ⟨n, L.gen, pos⟩ := by
  unfold Typed.getBlock Typed.visit at h
  obtain ⟨L, e1, h⟩ := bind_inv (matchArms_inv h)
  obtain ⟨b, e2, h⟩ := bind_inv h
  cases h
  exact ⟨L, e1, getP_lt e1, getU_lt e2, rfl⟩

/-- A pointer to a block of level `n`, obtained while the tree is borrowed by `is`, can still be used. -/
def Valid (z : St) (pm : Perm) (n : Nat) (is : List Item) (p : TPtr) : Prop :=
  p.ptr.level = n ∧ ∃ q, p.tag = some q ∧ Ch z p.place (⟨pm, q⟩ :: below n is)

theorem TPtr.place_eq {p : TPtr} {n : Nat} (h : p.ptr.level = n) : p.place = blockPlace n p.ptr.gen p.ptr.pos := by
  unfold TPtr.place; rw [h]

theorem getBlock_rel {lv : List GLevel} {z : St} {i : Item} {ys : List Item} {pm : Perm} (hp : Perm.le pm i)
    (ho : Own lv.length z (i :: ys)) (n pos : Nat) :
    Rel (fun p r => r.1.ptr = p ∧ Valid r.2 pm n (i :: ys) r.1 ∧ Own lv.length r.2 (i :: ys) ∧ (pm = .shared → Mono z r.2))
      (Typed.getBlock lv n pos) (getBlock pm lv (some i.tag) n pos z) := by
  cases hg : Typed.getBlock lv n pos with
  | error e => unfold getBlock; rw [hg]; exact .err
  | ok p =>
    obtain ⟨L, eL, hn, hpos, rfl⟩ := getBlock_inv hg
    obtain ⟨a, z1, e1, h1, -, m1⟩ := own_retag hp ho
    obtain ⟨b, z2, e2, T, m2⟩ := tup_retag h1 (Perm.le_self pm a) h1 (List.Sublist.refl _)
    obtain ⟨c, z3, e3, h3, f3, m3⟩ := retag_one (Perm.le_self pm b) (T.heads n hn)
    have T3 := T.fr (List.Sublist.refl _) (Fr.of f3 rfl) h3.tail
    obtain ⟨q, z4, e4, h4, hb, f4, m4⟩ := blockRef_spec (L := L) (Perm.le_self pm c) hpos h3
    have T4 := T3.fr (List.Sublist.refl _) f4 h4.tail
    have l1 : leave (some c) [.head n] z4 = .ok () := leave_one h4
    have l2 : leave (some b) (heads lv.length) z4 = .ok () := leave_tup T4
    have l3 : leave (some a) (inline lv.length) z4 = .ok () := leave_own T4.own
    unfold getBlock
    rw [hg]
    simp only [bind_ok, eL, e1, e2, e3, e4, l1, l2, l3]
    refine .ok ⟨rfl, ⟨rfl, q, rfl, ?_⟩, T4.own.tail, fun e => (((m1 e).trans (m2 e)).trans (m3 e)).trans (m4 e)⟩
    refine ch_sub hb (List.Sublist.cons_cons _ ?_)
    unfold below
    split
    · exact ((List.sublist_cons_self _ _).trans (List.sublist_cons_self _ _)).trans (List.sublist_cons_self _ _)
    · exact List.nil_sublist _

theorem getChild_rel {lv : List GLevel} {z : St} {is : List Item} {pm : Perm} {n : Nat} {p : TPtr} (hv : Valid z pm n is p)
    (k : Nat) :
    Rel (fun c r => r.1 = c ∧ Valid r.2 pm n is p ∧ (∀ D, Own D z is → Own D r.2 is) ∧ Mono z r.2)
      (p.ptr.getChild lv n k) (p.getChild lv n k z) := by
  unfold TPtr.getChild
  obtain ⟨hl, q, hq, hc⟩ := hv
  have hpl := TPtr.place_eq hl
  cases p.ptr.getChild lv n k with
  | error e => exact .err
  | ok c =>
    obtain ⟨z', e, h, f, m⟩ := readBlock_spec hc
    rw [hq]
    simp only [bind_ok]
    have e' : readBlock p.place (some q) z = .ok z' := e
    rw [e']
    refine .ok ⟨rfl, ⟨hl, q, hq, h⟩, fun D ho => ?_, m⟩
    rw [hpl] at f h
    exact ho.block f h

theorem getMask_rel {lv : List GLevel} {z : St} {is : List Item} {pm : Perm} {n : Nat} {p : TPtr} (hv : Valid z pm n is p) :
    Rel (fun c r => r.1 = c ∧ Valid r.2 pm n is p ∧ (∀ D, Own D z is → Own D r.2 is) ∧ Mono z r.2)
      (p.ptr.getMask lv n) (p.getMask lv n z) := by
  unfold TPtr.getMask
  obtain ⟨hl, q, hq, hc⟩ := hv
  have hpl := TPtr.place_eq hl
  cases p.ptr.getMask lv n with
  | error e => exact .err
  | ok c =>
    obtain ⟨a, z1, e1, h1, f1, m1⟩ := retag_one (Perm.le_shared ⟨pm, q⟩) hc
    obtain ⟨b, z2, e2, h2, f2, m2⟩ := retag_one (Perm.le_shared ⟨.shared, a⟩) h1
    obtain ⟨z3, e3, h3, f3, m3⟩ := readBlock_spec h2
    rw [hq]
    simp only [bind_ok]
    have e1' : retag .shared (some q) [p.place] z = .ok (some a, z1) := e1
    have e2' : retag .shared (some a) [p.place] z1 = .ok (some b, z2) := e2
    have e3' : readBlock p.place (some b) z2 = .ok z3 := e3
    have l1 : leave (some a) [p.place] z2 = .ok () := leave_one h2.tail
    rw [e1']; simp only [bind_ok]; rw [e2']; simp only [bind_ok]; rw [l1]; simp only [bind_ok]; rw [e3']
    have h := h3.tail.tail
    refine .ok ⟨rfl, ⟨hl, q, hq, h⟩, fun D ho => ?_, ((m1 rfl).trans (m2 rfl)).trans m3⟩
    have f : ∀ r, r ≠ p.place → z3.stk r = z.stk r := fun r hr => ((f3 r hr).trans (f2 r hr)).trans (f1 r hr)
    rw [hpl] at f h
    exact ho.block f h

theorem insertChild_rel {lv : List GLevel} {z : St} {is : List Item} {n : Nat} {p : TPtr} (hv : Valid z .uniq n is p)
    (k item : Nat) :
    Rel (fun c r => r.1 = c ∧ (∀ D, Own D z is → Own D r.2 is))
      (p.ptr.insertChild lv n k item) (p.insertChild lv n k item z) := by
  unfold TPtr.insertChild
  obtain ⟨hl, q, hq, hc⟩ := hv
  have hpl := TPtr.place_eq hl
  cases p.ptr.insertChild lv n k item with
  | error e => exact .err
  | ok c =>
    obtain ⟨z', e, h, f⟩ := writeBlock_spec rfl hc
    rw [hq]
    simp only [bind_ok]
    have e' : writeBlock p.place (some q) z = .ok z' := e
    rw [e']
    refine .ok ⟨rfl, fun D ho => ?_⟩
    rw [hpl] at f h
    exact ho.block f h

/-! ## Lookups -/

theorem foldN_rel {σ τ : Type} {P : σ → τ → Prop} {lv : List GLevel} {n : Nat}
    {v : σ → Nat → GLevel → R (σ × Bool)} {w : τ → Nat → GLevel → R (τ × Bool)}
    (hv : ∀ s t k L, getP lv k = .ok L → P s t → Rel (fun a b => P a.1 b.1 ∧ a.2 = b.2) (v s k L) (w t k L)) :
    ∀ (l : List Nat) (s : σ) (t : τ), P s t → Rel P (Typed.foldNArms lv n v l s) (Typed.foldNArms lv n w l t)
  | [], s, t, h => .ok h
  | k :: l, s, t, h => by
    unfold Typed.foldNArms
    refine Rel.ite (fun _ => .ok h) fun _ => Rel.same fun L eL => ?_
    refine Rel.bind (hv s t k L eL h) fun a b ⟨h', e⟩ => ?_
    obtain ⟨s', ba⟩ := a
    obtain ⟨t', bb⟩ := b
    simp only at e h'
    subst e
    exact Rel.ite (fun _ => .ok h') fun _ => foldN_rel hv l s' t' h'

theorem fetch_rel {lv : List GLevel} {z : St} {i : Item} {ys : List Item} (ho : Own lv.length z (i :: ys)) (li : List Nat) :
    Rel (fun a r => r.1 = a ∧ Own lv.length r.2 (i :: ys) ∧ Mono z r.2)
      (Typed.fetchBlockIndices lv li) (fetchBlockIndices lv (some i.tag) li z) := by
  obtain ⟨a, z1, e1, h1, -, m1⟩ := own_retag (pm := .shared) (Perm.le_shared i) ho
  obtain ⟨b, z2, e2, T, m2⟩ := tup_retag h1 (Perm.le_self .shared a) h1 (List.Sublist.refl _)
  unfold fetchBlockIndices Typed.fetchBlockIndices Typed.fold Typed.foldN
  simp only [e1, e2, bind_ok]
  have key := foldN_rel (lv := lv) (n := lv.length)
    (P := fun (s : List Nat × Nat) (s' : (List Nat × Nat) × St) => s'.1 = s ∧
      Tup lv.length s'.2 ⟨.shared, b⟩ (⟨.shared, a⟩ :: i :: ys) (⟨.shared, a⟩ :: i :: ys) ∧ Mono z s'.2)
    (v := fun s k L => do
      let block ← getU L.level.blocks s.2
      let inBlock ← getU li k
      let bi ← block.getOrZero inBlock
      let out ← setU s.1 k bi
      return ((out, bi), false))
    (w := fetchVisit li (some b)) (by
      intro s t k L eL ⟨hs, T, m⟩
      subst hs
      unfold fetchVisit
      refine Rel.same fun block eb => Rel.same fun inb _ => Rel.same fun bi _ => Rel.same fun out _ => ?_
      obtain ⟨c, z3, e3, h3, f3, m3⟩ := retag_one (Perm.le_self .shared b) (T.heads k (getP_lt eL))
      obtain ⟨q, z4, e4, h4, hb, f4, m4⟩ := blockRef_spec (L := L) (Perm.le_self .shared c) (getU_lt eb) h3
      obtain ⟨z5, e5, h5, f5, m5⟩ := readBlock_spec hb
      have hd : Ch z5 (.head k) (⟨.shared, c⟩ :: ⟨.shared, b⟩ :: ⟨.shared, a⟩ :: i :: ys) := by
        by_cases hk : k = 0
        · subst hk
          have h5' : Ch z5 (.head 0) _ := h5
          exact h5'.tail
        · refine ch_of_eq (f5 (.head k) ?_) h4
          unfold blockPlace
          rw [if_neg hk]
          intro h; cases h
      refine Rel.skip e3 (Rel.skip e4 (Rel.skip e5 (Rel.skip (leave_one hd) ?_)))
      refine .ok ⟨⟨rfl, ?_, m.trans (((m3 rfl).trans (m4 rfl)).trans m5)⟩, rfl⟩
      have F : Fr k t.2 z5 := ((Fr.of f3 rfl).trans f4).trans (Fr.of f5 (At.block _ _ _))
      exact T.fr (List.Sublist.refl _) F hd.tail)
    (Typed.arms lv.length) (List.replicate lv.length 0, 0) ((List.replicate lv.length 0, 0), z2)
    ⟨rfl, T, (m1 rfl).trans (m2 rfl)⟩
  generalize Typed.foldNArms lv lv.length (fun s k L => do
      let block ← getU L.level.blocks s.2
      let inBlock ← getU li k
      let bi ← block.getOrZero inBlock
      let out ← setU s.1 k bi
      return ((out, bi), false)) (Typed.arms lv.length) (List.replicate lv.length 0, 0) = x at key ⊢
  generalize Typed.foldNArms lv lv.length (fetchVisit li (some b)) (Typed.arms lv.length)
    ((List.replicate lv.length 0, 0), z2) = y at key ⊢
  cases key with
  | @ok _ r q =>
    obtain ⟨r1, r2⟩ := r
    exact Rel.skip rfl (Rel.skip (leave_tup q.2.1) (Rel.skip (leave_own q.2.1.own) (.ok ⟨q.1, q.2.1.own.tail, q.2.2⟩)))
  | err => exact .err

variable {α : Type}

theorem fetchIndex_rel {g : GT α} {z : St} {i : Item} {ys : List Item} (ho : Own g.levels.length z (i :: ys)) (li : List Nat) :
    Rel (fun a r => r.1 = a ∧ Own g.levels.length r.2 (i :: ys) ∧ Mono z r.2)
      (Typed.fetchBlockIndex g li) (fetchBlockIndex g (some i.tag) li z) := by
  obtain ⟨a, z1, e1, h1, -, m1⟩ := own_retag (pm := .shared) (Perm.le_shared i) ho
  unfold fetchBlockIndex Typed.fetchBlockIndex
  refine Rel.skip e1 ?_
  refine Rel.bind (fetch_rel h1 li) fun a r ⟨e, o, m⟩ => ?_
  obtain ⟨r1, r2⟩ := r
  simp only at e o m
  subst e
  exact Rel.skip (leave_own o) (.ok ⟨rfl, o.tail, (m1 rfl).trans m⟩)

theorem field_own {D : Nat} {z : St} {i : Item} {ys : List Item} {pm : Perm} {pl : Place} (hp : Perm.le pm i)
    (ho : Own D z (i :: ys)) (hpl : pl ∈ inline D) :
    ∃ z', field pm pl (some i.tag) z = .ok z' ∧ Own D z' (i :: ys) ∧ (∀ q, q ≠ pl → z'.stk q = z.stk q) ∧
      (pm = .shared → Mono z z') := by
  obtain ⟨z', e, h, f, m⟩ := field_spec hp (ho pl hpl)
  exact ⟨z', e, ho.of f h, f, m⟩

theorem treeData_rel {g : GT α} {z : St} {i : Item} {ys : List Item} (ho : Own g.levels.length z (i :: ys))
    (li : List Nat) :
    Rel (fun a r => r.1 = a ∧ Own g.levels.length r.2 (i :: ys) ∧ Mono z r.2)
      (Typed.treeData g li) (treeData g (some i.tag) li z) := by
  obtain ⟨a, z1, e1, h1, -, m1⟩ := own_retag (pm := .shared) (Perm.le_shared i) ho
  unfold treeData Typed.treeData
  refine Rel.skip e1 (Rel.bind (fetchIndex_rel h1 li) fun di r ⟨e, o, m⟩ => ?_)
  obtain ⟨r1, r2⟩ := r
  simp only at e o m
  subst e
  simp only
  refine Rel.ite (fun _ => Rel.skip (leave_own o) (.ok ⟨rfl, o.tail, (m1 rfl).trans m⟩)) fun _ => ?_
  refine Rel.same fun v _ => Rel.same fun v _ => ?_
  obtain ⟨z3, e3, o3, -, m3⟩ := field_own (Perm.le_shared ⟨.shared, a⟩) o (mem_values _)
  exact Rel.skip e3 (Rel.skip (leave_own o3) (.ok ⟨rfl, o3.tail, ((m1 rfl).trans m).trans (m3 rfl)⟩))

theorem get_rel (N D : Nat) {g : GT α} {z : St} {i : Item} {ys : List Item} (ho : Own g.levels.length z (i :: ys))
    (k : Nat) :
    Rel (fun a r => r.1 = a ∧ Own g.levels.length r.2 (i :: ys) ∧ Mono z r.2)
      ((Typed.impl α N D).get g k) (get N D g (some i.tag) k z) := by
  obtain ⟨a, z1, e1, h1, -, m1⟩ := own_retag (pm := .shared) (Perm.le_shared i) ho
  unfold get Impl.get
  refine Rel.same fun index _ => Rel.same fun li _ => Rel.skip e1 ?_
  have := treeData_rel h1 li
  revert this
  show Rel _ (Typed.treeData g li) (treeData g (some a) li z1) →
    Rel _ (Typed.treeData g li) (treeData g (some a) li z1 >>= _)
  generalize Typed.treeData g li = x
  generalize treeData g (some a) li z1 = y
  intro h
  cases h with
  | @ok _ r q =>
    obtain ⟨r1, r2⟩ := r
    exact Rel.skip rfl (Rel.skip (leave_own q.2.1) (.ok ⟨q.1, q.2.1.tail, (m1 rfl).trans q.2.2⟩))
  | err => exact .err

theorem getOrDefault_rel (N D : Nat) {g : GT α} {z : St} {i : Item} {ys : List Item}
    (ho : Own g.levels.length z (i :: ys)) (k : Nat) :
    Rel (fun a r => r.1 = a ∧ Own g.levels.length r.2 (i :: ys) ∧ Mono z r.2)
      (Typed.getOrDefault N D g k) (getOrDefault N D g (some i.tag) k z) := by
  obtain ⟨a, z1, e1, h1, -, m1⟩ := own_retag (pm := .shared) (Perm.le_shared i) ho
  unfold getOrDefault Typed.getOrDefault
  refine Rel.same fun index _ => Rel.same fun li _ => Rel.skip e1 ?_
  refine Rel.bind (fetchIndex_rel h1 li) fun di r ⟨e, o, m⟩ => ?_
  obtain ⟨r1, r2⟩ := r
  simp only at e o m
  subst e
  simp only
  obtain ⟨z3, e3, o3, -, m3⟩ := field_own (Perm.le_shared ⟨.shared, a⟩) o (mem_values _)
  cases getU g.values r1 with
  | error e => exact .err
  | ok v =>
    simp only [bind_ok]
    cases unwrapU v with
    | error e => exact .err
    | ok v =>
      simp only [bind_ok]
      exact Rel.skip e3 (Rel.skip (leave_own o3) (.ok ⟨rfl, o3.tail, ((m1 rfl).trans m).trans (m3 rfl)⟩))

theorem keyValues_rel {g : GT α} {z : St} {i : Item} {ys : List Item} (ho : Own g.levels.length z (i :: ys)) :
    Rel (fun a r => r.1 = a ∧ Own g.levels.length r.2 (i :: ys) ∧ Mono z r.2)
      (Typed.keyValues g) (keyValues g (some i.tag) z) := by
  obtain ⟨a, z1, e1, h1, -, m1⟩ := own_retag (pm := .shared) (Perm.le_shared i) ho
  obtain ⟨z2, e2, o2, -, m2⟩ := field_own (Perm.le_shared ⟨.shared, a⟩) h1 (mem_keys _)
  obtain ⟨z3, e3, o3, -, m3⟩ := field_own (Perm.le_shared ⟨.shared, a⟩) o2 (mem_values _)
  unfold keyValues
  cases Typed.keyValues g with
  | error e => exact .err
  | ok kv =>
    refine Rel.skip rfl (Rel.skip e1 (Rel.skip e2 (Rel.skip e3 ?_)))
    exact Rel.skip (leave_own o3) (.ok ⟨rfl, o3.tail, ((m1 rfl).trans (m2 rfl)).trans (m3 rfl)⟩)

end Hibit.SAlias
